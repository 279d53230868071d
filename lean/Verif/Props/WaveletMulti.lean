import Verif.Model.WaveletMulti
import Verif.Props.StationaryWavelets
import Verif.Props.VtvConv

/-! # C268: PDHG with the normalized multi-channel and Huber wavelet regularizers -/

namespace Verif
open Classical DataTerm Finset Filter Topology Verif.Spec

variable {κ : Type} [Fintype κ] [DecidableEq κ] {n : κ → ℕ} {m L : ℕ}

/-! ## Specification -/

/-- Specification: the coefficients without those of the approximation, if it is not to be minimised. -/
def keptBands (minApprox : Bool) {level : ℕ} {X : Type} (y : Arr (Band m level × X)) : Arr (Band m level × X) :=
  fun k => if minApprox = false ∧ k.1 = none then 0 else y k

/-- Specification: the vectorial wavelet penalty, the weight times the sum over the pixels of the norm of the bands of all channels. -/
noncomputable def vl1wlPenalty (w : FilterBank L) (minApprox : Bool) (level : ℕ) (axes : Fin m → κ) {r : ℕ} (weight : ℝ) (lvl2 chan2 : Bool) :
    Penalty (Fin r × Idx n) (Band m level × Fin r × Idx (paddedShape level axes n)) :=
  ⟨channelSwt w true false level axes, channelSwtT w true level axes,
    fun y => weight * ∑ p, vtvNorm lvl2 chan2 fun (b : Band m level) (c : Fin r) => keptBands minApprox y (b, c, p)⟩

/-- Specification: the nuclear wavelet penalty, the weight times the sum over the pixels of the nuclear norm of the matrix of the bands of all channels. -/
noncomputable def lnswlPenalty (w : FilterBank L) (minApprox : Bool) (level : ℕ) (axes : Fin m → κ) {r K : ℕ} (weight : ℝ) (e : Fin K ≃ Band m level)
    (nuc : (Fin r → Fin K → ℝ) → ℝ) : Penalty (Fin r × Idx n) (Band m level × Fin r × Idx (paddedShape level axes n)) :=
  ⟨channelSwt w true false level axes, channelSwtT w true level axes, fun y => weight * ∑ p, nuc fun c i => keptBands minApprox y (e i, c, p)⟩

/-- Specification: the Huber wavelet penalty, the weight times the sum of the Huber functions of the coefficients. -/
noncomputable def hubSwlPenalty (w : FilterBank L) (minApprox : Bool) (level : ℕ) (axes : Fin m → κ) (weight size : ℝ) :
    Penalty (Idx n) (Band m level × Idx (paddedShape level axes n)) :=
  ⟨swtOp w true false level axes, swtOpT w true level axes, fun y => weight * ∑ k, hub size |keptBands minApprox y k|⟩

/-! ## Regularizers with an isometric operator -/

section tight
variable {ν δ : Type} [Fintype ν] [Fintype δ]

/-- A regularizer with an isometric transform, of which the coefficients `skip` are not minimised: `R` is its dual step, `s` is the weight if the update of the primal
carries it (1 otherwise), `t` the published step size. -/
noncomputable def tightPreg (reg : Reg ν (Arr δ)) (K : Arr ν → Arr δ) (Kt : Arr δ → Arr ν) (skip : δ → Prop) (H0 : Arr δ → ℝ) (s t : ℝ) : PReg ν δ where
  reg := reg
  pen := ⟨K, Kt, fun y => s * H0 fun k => if skip k then 0 else y k⟩
  scale := fun _ => s
  σ := s
  c := fun _ => t

theorem tight_ok {reg : Reg ν (Arr δ)} {K : Arr ν → Arr δ} {Kt : Arr δ → Arr ν} {skip : δ → Prop} {H0 : Arr δ → ℝ} {s t : ℝ}
    (hs : 0 < s) (hst : s ≤ t) (hK : IsLinear K) (hadj : IsAdjoint K Kt) (henergy : ∀ x, ∑ k, K x k ^ 2 = ∑ j, x j ^ 2)
    (hH : ∀ a b : ℝ, 0 ≤ a → 0 ≤ b → a + b = 1 → ∀ x y : Arr δ, H0 (fun k => a * x k + b * y k) ≤ a * H0 x + b * H0 y)
    (hsig : ∀ x, reg.sigmaTau x = fun _ => t)
    (hupd : ∀ q x, reg.updateDual q x = fun k => if skip k then 0 else q k + K x k)
    (hprim : ∀ q, reg.updatePrimal q = (fun j => s * Kt q j, q))
    (hskip : ∀ u : Arr δ, (∀ k, skip k → u k = 0) → ∀ k, skip k → reg.proxDual u k = 0)
    (hcert : ∀ u z : Arr δ, (∀ k, skip k → u k = 0) → (∀ k, skip k → z k = 0) →
      H0 (fun k => u k - reg.proxDual u k) + ∑ k, reg.proxDual u k * (z k - (u k - reg.proxDual u k)) ≤ H0 z) :
    (tightPreg reg K Kt skip H0 s t).Ok where
  scalepos := fun _ => hs
  σpos := hs
  lin := hK
  adj := hadj
  convex := by
    refine ⟨convex_univ, fun x _ y _ a b ha hb hab => ?_⟩
    simp only [tightPreg, smul_eq_mul]
    have h := hH a b ha hb hab (fun k => if skip k then 0 else x k) fun k => if skip k then 0 else y k
    have e : (fun k => if skip k then 0 else (a • x + b • y) k) = fun k => a * (if skip k then 0 else x k) + b * if skip k then 0 else y k := by
      funext k
      by_cases hk : skip k <;> simp [hk]
    rw [e]
    have h2 := mul_le_mul_of_nonneg_left h hs.le
    linarith
  primal := fun q => by
    simp only [tightPreg, hprim, Prod.mk.injEq, and_true]
    have hl : ∀ j, Kt (fun d => s * q d) j = s * Kt q j := by
      intro j
      have e := hadj (fun k => if k = j then (1 : ℝ) else 0) q
      have e' := hadj (fun k => if k = j then (1 : ℝ) else 0) fun i => s * q i
      unfold dot at e e'
      have h2 : ∑ i, K (fun k => if k = j then (1 : ℝ) else 0) i * (s * q i) = s * ∑ i, K (fun k => if k = j then (1 : ℝ) else 0) i * q i := by
        rw [mul_sum]; exact sum_congr rfl fun i _ => by ring
      rw [h2, e] at e'
      simp only [ite_mul, one_mul, zero_mul, sum_ite_eq', mem_univ, if_true] at e'
      exact e'.symm
    funext j
    exact (hl j).symm
  dual := by
    refine ⟨fun u d => s * reg.proxDual (fun k => if skip k then 0 else u k / s) d, fun q x d => ?_, fun u z => ?_⟩
    · simp only [tightPreg, hupd]
      refine congrArg (fun f => s * reg.proxDual f d) (funext fun k => ?_)
      by_cases hk : skip k
      · simp [hk]
      · simp only [hk, if_false]; field_simp
    · simp only [tightPreg]
      set v : Arr δ := fun k => if skip k then 0 else u k / s with hv
      set z' : Arr δ := fun k => if skip k then 0 else z k with hz'
      have hv0 : ∀ k, skip k → v k = 0 := fun k hk => by simp [hv, hk]
      have hz0 : ∀ k, skip k → z' k = 0 := fun k hk => by simp [hz', hk]
      have hR0 := hskip v hv0
      have h := mul_le_mul_of_nonneg_left (hcert v z' hv0 hz0) hs.le
      have e1 : (fun k => if skip k then 0 else (u k - s * reg.proxDual v k) / s) = fun k => v k - reg.proxDual v k := by
        funext k
        by_cases hk : skip k
        · simp [hk, hR0 k hk, hv0 k hk]
        · simp only [hk, if_false, hv]; field_simp
      have e2 : ∑ k, s * reg.proxDual v k * (z k - (u k - s * reg.proxDual v k) / s) =
          s * ∑ k, reg.proxDual v k * (z' k - (v k - reg.proxDual v k)) := by
        rw [mul_sum]
        refine sum_congr rfl fun k _ => ?_
        by_cases hk : skip k
        · rw [hR0 k hk]; ring
        · have : (u k - s * reg.proxDual v k) / s = v k - reg.proxDual v k := by
            have := congrFun e1 k
            simpa [hk] using this
          rw [this]
          simp only [hz', hk, if_false]
          ring
      rw [e1, e2]
      rw [mul_add] at h
      exact h
  step := by
    refine ⟨hsig, fun _ => hs.le.trans hst, fun x => ?_⟩
    simp only [tightPreg]
    rw [← mul_sum, ← mul_sum, henergy]
    exact mul_le_mul_of_nonneg_right hst (sum_nonneg fun _ _ => sq_nonneg _)

end tight

/-! ## The transform of several channels -/

theorem swtOp_adjoint {w : FilterBank L} (h : OrthogonalWavelet w) (level : ℕ) (axes : Fin m → κ) :
    IsAdjoint (swtOp (n := n) w true false level axes) (swtOpT w true level axes) := by
  intro x y
  have e := C221_weighted_adjoint_partial h true level axes x y
  simp only [if_true, one_mul] at e
  unfold dot
  rw [Fintype.sum_prod_type]
  refine Eq.trans ?_ (e.symm.trans ?_)
  · exact sum_congr rfl fun b _ => sum_congr rfl fun q _ => mul_comm _ _
  · exact sum_congr rfl fun p _ => mul_comm _ _

theorem swtOp_energy {w : FilterBank L} (h : OrthogonalWavelet w) (level : ℕ) (axes : Fin m → κ) (x : Arr (Idx n)) :
    ∑ k, swtOp w true false level axes x k ^ 2 = ∑ p, x p ^ 2 := by
  have e := C221_energy_partial h true level axes x
  simp only [if_true, one_mul] at e
  rw [Fintype.sum_prod_type]
  exact e

theorem sum_band_pix {B : Type} [Fintype B] {P : Type} [Fintype P] {r : ℕ} (f : B × Fin r × P → ℝ) : ∑ k, f k = ∑ p, ∑ c, ∑ b, f (b, c, p) := by
  rw [Fintype.sum_prod_type]
  simp only [Fintype.sum_prod_type]
  rw [sum_comm]
  simp only [sum_comm (s := univ (α := B)) (t := univ (α := P))]
  rw [sum_comm]

theorem sum_band_chan {B : Type} [Fintype B] {P : Type} [Fintype P] {r : ℕ} (f : B × Fin r × P → ℝ) : ∑ k, f k = ∑ c, ∑ k : B × P, f (k.1, c, k.2) := by
  rw [Fintype.sum_prod_type]
  simp only [Fintype.sum_prod_type]
  rw [sum_comm]

theorem channelSwt_lin (w : FilterBank L) (level : ℕ) (axes : Fin m → κ) {r : ℕ} : IsLinear (channelSwt (n := n) (r := r) w true false level axes) := by
  intro a b x y
  funext k
  exact congrFun (swtOp_lin w true false level axes a b (fun p => x (k.2.1, p)) fun p => y (k.2.1, p)) (k.1, k.2.2)

theorem channelSwt_adjoint {w : FilterBank L} (h : OrthogonalWavelet w) (level : ℕ) (axes : Fin m → κ) {r : ℕ} :
    IsAdjoint (channelSwt (n := n) (r := r) w true false level axes) (channelSwtT w true level axes) := by
  intro x y
  unfold dot
  rw [sum_band_chan, Fintype.sum_prod_type]
  refine sum_congr rfl fun c _ => ?_
  exact swtOp_adjoint h level axes (fun p => x (c, p)) fun q => y (q.1, c, q.2)

theorem channelSwt_energy {w : FilterBank L} (h : OrthogonalWavelet w) (level : ℕ) (axes : Fin m → κ) {r : ℕ} (x : Arr (Fin r × Idx n)) :
    ∑ k, channelSwt w true false level axes x k ^ 2 = ∑ j, x j ^ 2 := by
  rw [sum_band_chan, Fintype.sum_prod_type]
  exact sum_congr rfl fun c _ => swtOp_energy h level axes fun p => x (c, p)

theorem swlTau_ge_one (w : FilterBank L) (level : ℕ) : 1 ≤ swlTau w true m level := by
  simp only [swlTau, if_true]
  have : (1 : ℝ) ≤ 2 ^ m := one_le_pow₀ (by norm_num)
  have : (0 : ℝ) ≤ level * (2 ^ m - 1) := mul_nonneg (Nat.cast_nonneg _) (by linarith)
  linarith

theorem swlUpdateDual_normalized (w : FilterBank L) (minApprox : Bool) {level : ℕ} {X : Type} (dual coeffs : Arr (Band m level × X)) :
    swlUpdateDual w true minApprox dual coeffs = fun k => if minApprox = false ∧ k.1 = none then 0 else dual k + coeffs k := by
  funext k
  simp [swlUpdateDual, swlSigma]

/-! ## The three regularizers -/

/-- C268: the vectorial wavelet regularizer stands for its penalty. -/
theorem C268_vectorial {w : FilterBank L} (h : OrthogonalWavelet w) (minApprox : Bool) (level : ℕ) (axes : Fin m → κ) {r : ℕ} {weight : ℝ} (hw : 0 < weight)
    (lvl2 chan2 : Bool) : (tightPreg (vl1wlReg (n := n) (r := r) w true false minApprox level axes weight (.ofTwo lvl2) (.ofTwo chan2))
      (channelSwt w true false level axes) (channelSwtT w true level axes) (fun k => minApprox = false ∧ k.1 = none)
      (fun y => weight * ∑ p, vtvNorm lvl2 chan2 fun (b : Band m level) (c : Fin r) => y (b, c, p)) 1 (swlTau w true m level)).Ok := by
  refine tight_ok one_pos (swlTau_ge_one w level) (channelSwt_lin w level axes) (channelSwt_adjoint h level axes) (channelSwt_energy h level axes) ?_
    (fun _ => rfl) (fun q x => (swlUpdateDual_normalized w minApprox q _).trans (by funext k; congr)) (fun q => by simp [vl1wlReg]) ?_ ?_
  · intro a b ha hb hab x y
    have h : ∑ p : Idx (paddedShape level axes n), vtvNorm lvl2 chan2 (fun (d : Band m level) (c : Fin r) => a * x (d, c, p) + b * y (d, c, p)) ≤
        ∑ p : Idx (paddedShape level axes n), (a * vtvNorm lvl2 chan2 (fun d c => x (d, c, p)) + b * vtvNorm lvl2 chan2 fun d c => y (d, c, p)) :=
      sum_le_sum fun p _ => vtvNorm_convex lvl2 chan2 ha hb (fun d c => x (d, c, p)) fun d c => y (d, c, p)
    rw [sum_add_distrib, ← mul_sum, ← mul_sum] at h
    have h2 := mul_le_mul_of_nonneg_left h hw.le
    linarith
  · intro u hu k hk
    simp only [vl1wlReg, vtvProxDual]
    rw [hu k hk]
    simp
  · intro u z _ _
    simp only [vl1wlReg]
    rw [mul_sum, mul_sum, sum_band_pix, ← sum_add_distrib]
    refine sum_le_sum fun p _ => ?_
    rw [sum_comm]
    have := vtv_pixel_cert lvl2 chan2 hw one_pos u p fun d c => z (d, c, p)
    simpa only [div_one] using this

private theorem nuc_cert_one {r k : ℕ} {nuc : (Fin r → Fin k → ℝ) → ℝ} (hN : ∀ M, IsNuclearNorm M (nuc M)) {M R : Fin r → Fin k → ℝ}
    (h : NearestInBall M R) (z : Fin r → Fin k → ℝ) :
    nuc (fun i j => M i j - R i j) + ∑ i, ∑ j, R i j * (z i j - (M i j - R i j)) ≤ nuc z := by
  obtain ⟨Y, hY, e⟩ := (hN fun i j => M i j - R i j).1
  have h1 := nearest_angle h hY
  have h2 : ∑ i, ∑ j, R i j * z i j ≤ nuc z := (hN z).2 ⟨R, h.1, rfl⟩
  have e2 : ∑ i, ∑ j, R i j * (z i j - (M i j - R i j)) = ∑ i, ∑ j, R i j * z i j - ∑ i, ∑ j, R i j * (M i j - R i j) := by
    simp only [← sum_sub_distrib]; exact sum_congr rfl fun i _ => sum_congr rfl fun j _ => by ring
  rw [e, e2]
  linarith

/-- The nearest matrix has no entries in the columns in which the given matrix has none. -/
private theorem nearest_column {r k : ℕ} {M R : Fin r → Fin k → ℝ} (h : NearestInBall M R) {d : Fin k} (hd : ∀ i, M i d = 0) (i : Fin r) : R i d = 0 := by
  have hball : SpectralBall fun i j => if j = d then 0 else R i j := by
    intro x
    have h1 := h.1 fun j => if j = d then 0 else x j
    refine le_trans (le_of_eq ?_) (h1.trans ?_)
    · refine sum_congr rfl fun i _ => ?_
      congr 1
      exact sum_congr rfl fun j _ => by by_cases hj : j = d <;> simp [hj]
    · refine sum_le_sum fun j _ => ?_
      by_cases hj : j = d
      · simp [hj, sq_nonneg]
      · simp [hj]
  obtain ⟨h1, h2⟩ := h.2 _ hball
  have h3 : frobSq M (fun i j => if j = d then 0 else R i j) ≤ frobSq M R := by
    unfold frobSq
    refine sum_le_sum fun i _ => sum_le_sum fun j _ => ?_
    by_cases hj : j = d
    · subst hj
      simp [hd i, sq_nonneg]
    · simp [hj]
  have h4 := congrFun (congrFun (h2 (le_antisymm h3 h1)) i) d
  simpa using h4.symm

/-- C268: the nuclear wavelet regularizer stands for its penalty. -/
theorem C268_nuclear {w : FilterBank L} (h : OrthogonalWavelet w) (minApprox : Bool) (level : ℕ) (axes : Fin m → κ) {r K q : ℕ} {weight : ℝ} (hw : 0 < weight)
    (e : Fin K ≃ Band m level) (svd : (Fin r → Fin K → ℝ) → Svd r K q) (hS : ∀ M, (svd M).Valid M)
    (spectral : DataTerm (Idx (paddedShape level axes n) × Fin q)) (hk : spectral.kind = .l1) (hd : spectral.data = none) (xRef : Option (Arr (Idx n)))
    {nuc : (Fin r → Fin K → ℝ) → ℝ} (hN : ∀ M, IsNuclearNorm M (nuc M)) :
    (tightPreg (lnswlReg w true false minApprox level axes weight e svd spectral xRef)
      (channelSwt w true false level axes) (channelSwtT w true level axes) (fun k => minApprox = false ∧ k.1 = none)
      (fun y => ∑ p, nuc fun c i => y (e i, c, p)) weight (swlTau w true m level * weight)).Ok := by
  have hne : ∀ (u : Arr (Band m level × Fin r × Idx (paddedShape level axes n))) p, NearestInBall (fun c i => u (e i, c, p))
      fun c i => bandNuclear e svd spectral u (e i, c, p) := by
    intro u p
    have := C149_nuclear_projection svd spectral hk hd (fun x : Fin K × Fin r × Idx (paddedShape level axes n) => u (e x.1, x.2)) p (hS _)
    simpa only [bandNuclear, Equiv.symm_apply_apply] using this
  refine tight_ok hw (le_mul_of_one_le_left hw.le (swlTau_ge_one w level)) (channelSwt_lin w level axes) (channelSwt_adjoint h level axes)
    (channelSwt_energy h level axes) ?_
    (fun _ => rfl) (fun q x => (swlUpdateDual_normalized w minApprox q _).trans (by funext k; congr)) (fun q => by simp [lnswlReg, mul_comm]) ?_ ?_
  · intro a b ha hb hab x y
    have h : ∑ p : Idx (paddedShape level axes n), nuc (fun c i => a * x (e i, c, p) + b * y (e i, c, p)) ≤
        ∑ p : Idx (paddedShape level axes n), (a * nuc (fun c i => x (e i, c, p)) + b * nuc fun c i => y (e i, c, p)) :=
      sum_le_sum fun p _ => nuc_convex hN (fun c i => x (e i, c, p)) (fun c i => y (e i, c, p)) ha hb
    rwa [sum_add_distrib, ← mul_sum, ← mul_sum] at h
  · rintro u hu ⟨b, c, p⟩ hk
    have h0 := nearest_column (hne u p) (d := e.symm b) (fun i => by
      simp only [Equiv.apply_symm_apply]
      exact hu (b, i, p) hk) c
    rw [Equiv.apply_symm_apply] at h0
    exact h0
  · intro u z _ _
    have h2 : ∀ f : Band m level × Fin r × Idx (paddedShape level axes n) → ℝ, ∑ k, f k = ∑ p, ∑ c, ∑ i, f (e i, c, p) := by
      intro f
      rw [sum_band_pix]
      exact sum_congr rfl fun p _ => sum_congr rfl fun c _ => (Equiv.sum_comp e fun b => f (b, c, p)).symm
    rw [h2, ← sum_add_distrib]
    refine sum_le_sum fun p _ => ?_
    exact nuc_cert_one hN (hne u p) fun c i => z (e i, c, p)

private theorem hub_scalar {e : ℝ} (he : 0 < e) (v : ℝ) : ∃ s : ℝ, |s| ≤ 1 ∧ hub e |v| = s * v - e * s ^ 2 / 2 := by
  obtain ⟨h1, h2⟩ := hub_attained he fun _ : Fin 1 => v
  simp only [Fin.sum_univ_one, Real.sqrt_sq_eq_abs] at h1 h2
  exact ⟨v / max e |v|, abs_le_one_iff_mul_self_le_one.2 (by rwa [← sq]), h2⟩

/-- The dual step of the Huber norm. -/
private theorem hub_step {e : ℝ} (he : 0 < e) (u : ℝ) :
    let R := u / (1 + e) / max 1 (|u| / (1 + e))
    |R| ≤ 1 ∧ hub e |u - R| = R * (u - R) - e * R ^ 2 / 2 := by
  intro R
  have hD : 0 < 1 + e := by linarith
  rcases le_or_gt |u| (1 + e) with h | h
  · have hR : R = u / (1 + e) := by
      simp only [R]
      rw [max_eq_left ((div_le_one hD).2 h), div_one]
    have hu : u - R = e * R := by rw [hR]; field_simp; ring
    have hR1 : |R| ≤ 1 := by rw [hR, abs_div, abs_of_pos hD]; exact (div_le_one hD).2 h
    refine ⟨hR1, ?_⟩
    rw [hu, abs_mul, abs_of_pos he]
    unfold hub
    rw [if_pos (mul_le_of_le_one_right he.le hR1), mul_pow, sq_abs]
    field_simp
    ring
  · have hu0 : 0 < |u| := hD.trans h
    have hR : R = u / |u| := by
      simp only [R]
      rw [max_eq_right ((one_lt_div hD).2 h).le]
      field_simp
    have hR1 : |R| = 1 := by rw [hR, abs_div, abs_abs, div_self hu0.ne']
    have hR2 : R ^ 2 = 1 := by rw [← sq_abs, hR1, one_pow]
    have hu : u - R = (|u| - 1) * R := by rw [hR]; field_simp
    refine ⟨hR1.le, ?_⟩
    have hp : 0 < |u| - 1 := by linarith
    rw [hu, abs_mul, hR1, mul_one, abs_of_pos hp]
    unfold hub
    rw [if_neg (by linarith)]
    linear_combination (-(|u| - 1) + e / 2) * hR2

/-- C268: the Huber wavelet regularizer stands for its penalty. -/
theorem C268_huber {w : FilterBank L} (h : OrthogonalWavelet w) (minApprox : Bool) (level : ℕ) (axes : Fin m → κ) {weight : ℝ} (hw : 0 < weight)
    (norm : DataTerm (Band m level × Idx (paddedShape level axes n))) {size : ℝ} (hsz : 0 < size)
    (row : Bool → Finset (Band m level × Idx (paddedShape level axes n))) (hn : norm.kind = .huber (.scalar size) none row) :
    (tightPreg (normSwlReg w true false minApprox level axes weight norm)
      (swtOp w true false level axes) (swtOpT w true level axes) (fun k => minApprox = false ∧ k.1 = none)
      (fun y => ∑ k, hub size |y k|) weight (swlTau w true m level * weight)).Ok := by
  have hprox : ∀ (u : Arr (Band m level × Idx (paddedShape level axes n))) k, (normSwlReg w true false minApprox level axes weight norm).proxDual u k =
      u k / (1 + size) / max 1 (|u k| / (1 + size)) := by
    intro u k
    have h1 : (norm.assignData none (.array fun q => swlSigma w true m level q.1)).kind = .huber (.scalar size) none row := hn
    have hd : ∀ k, (norm.assignData none (.array fun q => swlSigma w true m level q.1)).subSigmaData u k *
        (norm.assignData none (.array fun q => swlSigma w true m level q.1)).oneSigmaError.get k = u k / (1 + size) := by
      intro k
      simp only [subSigmaData, assignData, hn, Attr.map₂, Attr.get, swlSigma, if_true, one_mul]
      ring
    simp only [normSwlReg]
    unfold proxDual
    rw [h1]
    simp only [hd]
    rw [abs_div, abs_of_pos (by linarith : 0 < 1 + size)]
  have hge : ∀ {s v : ℝ}, |s| ≤ 1 → s * v - size * s ^ 2 / 2 ≤ hub size |v| := by
    intro s v hs
    have h0 := hub_ge hsz (abs_nonneg s) hs (abs_nonneg v)
    rw [sq_abs, ← abs_mul] at h0
    have := le_abs_self (s * v)
    linarith
  refine tight_ok hw (le_mul_of_one_le_left hw.le (swlTau_ge_one w level)) (swtOp_lin w true false level axes) (swtOp_adjoint h level axes)
    (swtOp_energy h level axes) ?_
    (fun _ => rfl) (fun q x => (swlUpdateDual_normalized w minApprox q _).trans (by funext k; congr)) (fun q => by simp [normSwlReg, mul_comm]) ?_ ?_
  · intro a b ha hb hab x y
    rw [mul_sum, mul_sum, ← sum_add_distrib]
    refine sum_le_sum fun k _ => ?_
    obtain ⟨s, hs, e⟩ := hub_scalar hsz (a * x k + b * y k)
    have h1 := mul_le_mul_of_nonneg_left (hge (v := x k) hs) ha
    have h2 := mul_le_mul_of_nonneg_left (hge (v := y k) hs) hb
    rw [e]
    have e2 : size * s ^ 2 / 2 = a * (size * s ^ 2 / 2) + b * (size * s ^ 2 / 2) := by rw [← add_mul, hab, one_mul]
    linarith
  · intro u hu k hk
    rw [hprox, hu k hk]
    simp
  · intro u z _ _
    rw [← sum_add_distrib]
    refine sum_le_sum fun k _ => ?_
    simp only [hprox]
    obtain ⟨h1, h2⟩ := hub_step hsz (u k)
    have := hge (v := z k) h1
    rw [h2]
    linarith

/-! ## Convergence -/

variable {ι : Type} [Fintype ι]

/-- C268: PDHG with the vectorial wavelet regularizer with the exponents 1 and 2, normalized transform, orthogonal wavelet and padding with zeros: the iterates converge to a minimiser of the data term plus the penalty. -/
theorem C268_converges_vectorial {w : FilterBank L} (h : OrthogonalWavelet w) (minApprox : Bool) (level : ℕ) (axes : Fin m → κ) {r : ℕ} {weight : ℝ} (hw : 0 < weight) (lvl2 chan2 : Bool)
    {M : ι → Fin r × Idx n → ℝ} {S : Solver (Fin r × Idx n) ι (Arr (Band m level × Fin r × Idx (paddedShape level axes n)))} {b : Arr ι} {a : Args (Fin r × Idx n) ι} {rnd : Arr ι}
    (hregs : S.regs = [vl1wlReg w true false minApprox level axes weight (.ofTwo lvl2) (.ofTwo chan2)])
    (hk : ConvexKind S.term.kind) (hT : S.tolerance = none) (hω : 0 < S.relaxation) (hω1 : S.relaxation < 1)
    (hs : SensibleScale M a) (htw : ∀ i, trainWeight a i = 0 ∨ trainWeight a i = 1)
    (hcols : ∀ j, (∑ i, |M i j|) + (level * (2 ^ m - 1) + 1) ≤ 100000)
    (hsol : ∃ x, IsSolution S M a b [vl1wlPenalty w minApprox level axes weight lvl2 chan2] x)
    (hint : ∃ x, Admissible a x ∧ ∀ i, trainWeight a i ≠ 0 →
      S.term.addBackground (fun i => ∑ j, M i j * x j) i ∈ interior (pixelFunctional S.term.kind (b i) i).dom)
    {xs : ℕ → Arr (Fin r × Idx n)} (hrun : ∀ N, ∃ info S', pdhg S (matrixOp M) b { a with iterations := N } true rnd = .ok (xs N, info, S')) :
    ∃ x, IsSolution S M a b [vl1wlPenalty w minApprox level axes weight lvl2 chan2] x ∧ Tendsto xs atTop (𝓝 x) := by
  have hsame := fun x => same_penalty (S := S) (M := M) (a := a) (b := b)
    (g := (tightPreg (vl1wlReg w true false minApprox level axes weight (.ofTwo lvl2) (.ofTwo chan2)) (channelSwt w true false level axes) (channelSwtT w true level axes) (fun k => minApprox = false ∧ k.1 = none)
      (fun y : Arr (Band m level × Fin r × Idx (paddedShape level axes n)) => weight * ∑ p, vtvNorm lvl2 chan2 fun (b : Band m level) (c : Fin r) => y (b, c, p)) 1 (swlTau w true m level)).pen)
    (g' := vl1wlPenalty w minApprox level axes weight lvl2 chan2) (fun y => by simp only [tightPreg, vl1wlPenalty, keptBands, one_mul]; congr!) x
  obtain ⟨x0, h0⟩ := hsol
  obtain ⟨x, hx, hl⟩ := C141_pdhg_converges (gs := [tightPreg (vl1wlReg w true false minApprox level axes weight (.ofTwo lvl2) (.ofTwo chan2)) (channelSwt w true false level axes) (channelSwtT w true level axes) (fun k => minApprox = false ∧ k.1 = none)
      (fun y : Arr (Band m level × Fin r × Idx (paddedShape level axes n)) => weight * ∑ p, vtvNorm lvl2 chan2 fun (b : Band m level) (c : Fin r) => y (b, c, p)) 1 (swlTau w true m level)]) hregs
    (by simp only [List.mem_singleton]; rintro g rfl; exact C268_vectorial (n := n) (r := r) h minApprox level axes hw lvl2 chan2) hk hT hω hω1 hs htw
    (by simpa [tightPreg, swlTau] using hcols) ⟨x0, (hsame x0).2 h0⟩ hint hrun
  exact ⟨x, (hsame x).1 hx, hl⟩

/-- C268: PDHG with the vectorial wavelet regularizer with the exponents 1 and 2, normalized transform, orthogonal wavelet and padding with zeros: the iterates converge to a minimiser of the data term plus the penalty. With both limits given and a data term that is finite everywhere nothing has to be assumed about solutions. -/
theorem C268_converges_vectorial_limits {w : FilterBank L} (h : OrthogonalWavelet w) (minApprox : Bool) (level : ℕ) (axes : Fin m → κ) {r : ℕ} {weight : ℝ} (hw : 0 < weight) (lvl2 chan2 : Bool)
    {M : ι → Fin r × Idx n → ℝ} {S : Solver (Fin r × Idx n) ι (Arr (Band m level × Fin r × Idx (paddedShape level axes n)))} {b : Arr ι} {a : Args (Fin r × Idx n) ι} {rnd : Arr ι}
    (hregs : S.regs = [vl1wlReg w true false minApprox level axes weight (.ofTwo lvl2) (.ofTwo chan2)])
    (hk : ConvexKind S.term.kind) (hkl : S.term.kind ≠ .kl) (hT : S.tolerance = none) (hω : 0 < S.relaxation) (hω1 : S.relaxation < 1)
    (hs : SensibleScale M a) (htw : ∀ i, trainWeight a i = 0 ∨ trainWeight a i = 1)
    (hcols : ∀ j, (∑ i, |M i j|) + (level * (2 ^ m - 1) + 1) ≤ 100000)
    (hlo : a.lower.isSome) (hup : a.upper.isSome) (hlim : SensibleLimits a)
    {xs : ℕ → Arr (Fin r × Idx n)} (hrun : ∀ N, ∃ info S', pdhg S (matrixOp M) b { a with iterations := N } true rnd = .ok (xs N, info, S')) :
    ∃ x, IsSolution S M a b [vl1wlPenalty w minApprox level axes weight lvl2 chan2] x ∧ Tendsto xs atTop (𝓝 x) := by
  have hsame := fun x => same_penalty (S := S) (M := M) (a := a) (b := b)
    (g := (tightPreg (vl1wlReg w true false minApprox level axes weight (.ofTwo lvl2) (.ofTwo chan2)) (channelSwt w true false level axes) (channelSwtT w true level axes) (fun k => minApprox = false ∧ k.1 = none)
      (fun y : Arr (Band m level × Fin r × Idx (paddedShape level axes n)) => weight * ∑ p, vtvNorm lvl2 chan2 fun (b : Band m level) (c : Fin r) => y (b, c, p)) 1 (swlTau w true m level)).pen)
    (g' := vl1wlPenalty w minApprox level axes weight lvl2 chan2) (fun y => by simp only [tightPreg, vl1wlPenalty, keptBands, one_mul]; congr!) x
  obtain ⟨x, hx, hl⟩ := C141_pdhg_converges_limits (gs := [tightPreg (vl1wlReg w true false minApprox level axes weight (.ofTwo lvl2) (.ofTwo chan2)) (channelSwt w true false level axes) (channelSwtT w true level axes) (fun k => minApprox = false ∧ k.1 = none)
      (fun y : Arr (Band m level × Fin r × Idx (paddedShape level axes n)) => weight * ∑ p, vtvNorm lvl2 chan2 fun (b : Band m level) (c : Fin r) => y (b, c, p)) 1 (swlTau w true m level)]) hregs
    (by simp only [List.mem_singleton]; rintro g rfl; exact C268_vectorial (n := n) (r := r) h minApprox level axes hw lvl2 chan2) hk hkl hT hω hω1 hs htw
    (by simpa [tightPreg, swlTau] using hcols) hlo hup hlim hrun
  exact ⟨x, (hsame x).1 hx, hl⟩

/-- C268: PDHG with the nuclear wavelet regularizer, for every correct singular value decomposition and with or without reference, normalized transform, orthogonal wavelet and padding with zeros: the iterates converge to a minimiser of the data term plus the penalty. -/
theorem C268_converges_nuclear {w : FilterBank L} (h : OrthogonalWavelet w) (minApprox : Bool) (level : ℕ) (axes : Fin m → κ) {r K q : ℕ} {weight : ℝ} (hw : 0 < weight) (e : Fin K ≃ Band m level)
    (svd : (Fin r → Fin K → ℝ) → Svd r K q) (hS : ∀ M, (svd M).Valid M) (spectral : DataTerm (Idx (paddedShape level axes n) × Fin q))
    (hl1 : spectral.kind = .l1) (hd : spectral.data = none) (xRef : Option (Arr (Idx n))) {nuc : (Fin r → Fin K → ℝ) → ℝ} (hN : ∀ M, IsNuclearNorm M (nuc M))
    {M : ι → Fin r × Idx n → ℝ} {S : Solver (Fin r × Idx n) ι (Arr (Band m level × Fin r × Idx (paddedShape level axes n)))} {b : Arr ι} {a : Args (Fin r × Idx n) ι} {rnd : Arr ι}
    (hregs : S.regs = [lnswlReg w true false minApprox level axes weight e svd spectral xRef])
    (hk : ConvexKind S.term.kind) (hT : S.tolerance = none) (hω : 0 < S.relaxation) (hω1 : S.relaxation < 1)
    (hs : SensibleScale M a) (htw : ∀ i, trainWeight a i = 0 ∨ trainWeight a i = 1)
    (hcols : ∀ j, (∑ i, |M i j|) + (level * (2 ^ m - 1) + 1) * weight ≤ 100000)
    (hsol : ∃ x, IsSolution S M a b [lnswlPenalty w minApprox level axes weight e nuc] x)
    (hint : ∃ x, Admissible a x ∧ ∀ i, trainWeight a i ≠ 0 →
      S.term.addBackground (fun i => ∑ j, M i j * x j) i ∈ interior (pixelFunctional S.term.kind (b i) i).dom)
    {xs : ℕ → Arr (Fin r × Idx n)} (hrun : ∀ N, ∃ info S', pdhg S (matrixOp M) b { a with iterations := N } true rnd = .ok (xs N, info, S')) :
    ∃ x, IsSolution S M a b [lnswlPenalty w minApprox level axes weight e nuc] x ∧ Tendsto xs atTop (𝓝 x) := by
  have hsame := fun x => same_penalty (S := S) (M := M) (a := a) (b := b)
    (g := (tightPreg (lnswlReg w true false minApprox level axes weight e svd spectral xRef) (channelSwt w true false level axes) (channelSwtT w true level axes) (fun k => minApprox = false ∧ k.1 = none)
      (fun y : Arr (Band m level × Fin r × Idx (paddedShape level axes n)) => ∑ p, nuc fun c i => y (e i, c, p)) weight (swlTau w true m level * weight)).pen)
    (g' := lnswlPenalty w minApprox level axes weight e nuc) (fun y => by simp only [tightPreg, lnswlPenalty, keptBands]; congr!) x
  obtain ⟨x0, h0⟩ := hsol
  obtain ⟨x, hx, hl⟩ := C141_pdhg_converges (gs := [tightPreg (lnswlReg w true false minApprox level axes weight e svd spectral xRef) (channelSwt w true false level axes) (channelSwtT w true level axes) (fun k => minApprox = false ∧ k.1 = none)
      (fun y : Arr (Band m level × Fin r × Idx (paddedShape level axes n)) => ∑ p, nuc fun c i => y (e i, c, p)) weight (swlTau w true m level * weight)]) hregs
    (by simp only [List.mem_singleton]; rintro g rfl; exact C268_nuclear (n := n) (r := r) h minApprox level axes hw e svd hS spectral hl1 hd xRef hN) hk hT hω hω1 hs htw
    (by simpa [tightPreg, swlTau] using hcols) ⟨x0, (hsame x0).2 h0⟩ hint hrun
  exact ⟨x, (hsame x).1 hx, hl⟩

/-- C268: PDHG with the nuclear wavelet regularizer, for every correct singular value decomposition and with or without reference, normalized transform, orthogonal wavelet and padding with zeros: the iterates converge to a minimiser of the data term plus the penalty. With both limits given and a data term that is finite everywhere nothing has to be assumed about solutions. -/
theorem C268_converges_nuclear_limits {w : FilterBank L} (h : OrthogonalWavelet w) (minApprox : Bool) (level : ℕ) (axes : Fin m → κ) {r K q : ℕ} {weight : ℝ} (hw : 0 < weight) (e : Fin K ≃ Band m level)
    (svd : (Fin r → Fin K → ℝ) → Svd r K q) (hS : ∀ M, (svd M).Valid M) (spectral : DataTerm (Idx (paddedShape level axes n) × Fin q))
    (hl1 : spectral.kind = .l1) (hd : spectral.data = none) (xRef : Option (Arr (Idx n))) {nuc : (Fin r → Fin K → ℝ) → ℝ} (hN : ∀ M, IsNuclearNorm M (nuc M))
    {M : ι → Fin r × Idx n → ℝ} {S : Solver (Fin r × Idx n) ι (Arr (Band m level × Fin r × Idx (paddedShape level axes n)))} {b : Arr ι} {a : Args (Fin r × Idx n) ι} {rnd : Arr ι}
    (hregs : S.regs = [lnswlReg w true false minApprox level axes weight e svd spectral xRef])
    (hk : ConvexKind S.term.kind) (hkl : S.term.kind ≠ .kl) (hT : S.tolerance = none) (hω : 0 < S.relaxation) (hω1 : S.relaxation < 1)
    (hs : SensibleScale M a) (htw : ∀ i, trainWeight a i = 0 ∨ trainWeight a i = 1)
    (hcols : ∀ j, (∑ i, |M i j|) + (level * (2 ^ m - 1) + 1) * weight ≤ 100000)
    (hlo : a.lower.isSome) (hup : a.upper.isSome) (hlim : SensibleLimits a)
    {xs : ℕ → Arr (Fin r × Idx n)} (hrun : ∀ N, ∃ info S', pdhg S (matrixOp M) b { a with iterations := N } true rnd = .ok (xs N, info, S')) :
    ∃ x, IsSolution S M a b [lnswlPenalty w minApprox level axes weight e nuc] x ∧ Tendsto xs atTop (𝓝 x) := by
  have hsame := fun x => same_penalty (S := S) (M := M) (a := a) (b := b)
    (g := (tightPreg (lnswlReg w true false minApprox level axes weight e svd spectral xRef) (channelSwt w true false level axes) (channelSwtT w true level axes) (fun k => minApprox = false ∧ k.1 = none)
      (fun y : Arr (Band m level × Fin r × Idx (paddedShape level axes n)) => ∑ p, nuc fun c i => y (e i, c, p)) weight (swlTau w true m level * weight)).pen)
    (g' := lnswlPenalty w minApprox level axes weight e nuc) (fun y => by simp only [tightPreg, lnswlPenalty, keptBands]; congr!) x
  obtain ⟨x, hx, hl⟩ := C141_pdhg_converges_limits (gs := [tightPreg (lnswlReg w true false minApprox level axes weight e svd spectral xRef) (channelSwt w true false level axes) (channelSwtT w true level axes) (fun k => minApprox = false ∧ k.1 = none)
      (fun y : Arr (Band m level × Fin r × Idx (paddedShape level axes n)) => ∑ p, nuc fun c i => y (e i, c, p)) weight (swlTau w true m level * weight)]) hregs
    (by simp only [List.mem_singleton]; rintro g rfl; exact C268_nuclear (n := n) (r := r) h minApprox level axes hw e svd hS spectral hl1 hd xRef hN) hk hkl hT hω hω1 hs htw
    (by simpa [tightPreg, swlTau] using hcols) hlo hup hlim hrun
  exact ⟨x, (hsame x).1 hx, hl⟩

/-- C268: PDHG with the Huber wavelet regularizer, normalized transform, orthogonal wavelet and padding with zeros: the iterates converge to a minimiser of the data term plus the penalty. -/
theorem C268_converges_huber {w : FilterBank L} (h : OrthogonalWavelet w) (minApprox : Bool) (level : ℕ) (axes : Fin m → κ) {weight : ℝ} (hw : 0 < weight)
    (norm : DataTerm (Band m level × Idx (paddedShape level axes n))) {size : ℝ} (hsz : 0 < size)
    (row : Bool → Finset (Band m level × Idx (paddedShape level axes n))) (hn : norm.kind = .huber (.scalar size) none row)
    {M : ι → Idx n → ℝ} {S : Solver (Idx n) ι (Arr (Band m level × Idx (paddedShape level axes n)))} {b : Arr ι} {a : Args (Idx n) ι} {rnd : Arr ι}
    (hregs : S.regs = [normSwlReg w true false minApprox level axes weight norm])
    (hk : ConvexKind S.term.kind) (hT : S.tolerance = none) (hω : 0 < S.relaxation) (hω1 : S.relaxation < 1)
    (hs : SensibleScale M a) (htw : ∀ i, trainWeight a i = 0 ∨ trainWeight a i = 1)
    (hcols : ∀ j, (∑ i, |M i j|) + (level * (2 ^ m - 1) + 1) * weight ≤ 100000)
    (hsol : ∃ x, IsSolution S M a b [hubSwlPenalty w minApprox level axes weight size] x)
    (hint : ∃ x, Admissible a x ∧ ∀ i, trainWeight a i ≠ 0 →
      S.term.addBackground (fun i => ∑ j, M i j * x j) i ∈ interior (pixelFunctional S.term.kind (b i) i).dom)
    {xs : ℕ → Arr (Idx n)} (hrun : ∀ N, ∃ info S', pdhg S (matrixOp M) b { a with iterations := N } true rnd = .ok (xs N, info, S')) :
    ∃ x, IsSolution S M a b [hubSwlPenalty w minApprox level axes weight size] x ∧ Tendsto xs atTop (𝓝 x) := by
  have hsame := fun x => same_penalty (S := S) (M := M) (a := a) (b := b)
    (g := (tightPreg (normSwlReg w true false minApprox level axes weight norm) (swtOp w true false level axes) (swtOpT w true level axes) (fun k => minApprox = false ∧ k.1 = none)
      (fun y : Arr (Band m level × Idx (paddedShape level axes n)) => ∑ k, hub size |y k|) weight (swlTau w true m level * weight)).pen)
    (g' := hubSwlPenalty w minApprox level axes weight size) (fun y => by simp only [tightPreg, hubSwlPenalty, keptBands]; congr!) x
  obtain ⟨x0, h0⟩ := hsol
  obtain ⟨x, hx, hl⟩ := C141_pdhg_converges (gs := [tightPreg (normSwlReg w true false minApprox level axes weight norm) (swtOp w true false level axes) (swtOpT w true level axes) (fun k => minApprox = false ∧ k.1 = none)
      (fun y : Arr (Band m level × Idx (paddedShape level axes n)) => ∑ k, hub size |y k|) weight (swlTau w true m level * weight)]) hregs
    (by simp only [List.mem_singleton]; rintro g rfl; exact C268_huber (n := n) h minApprox level axes hw norm hsz row hn) hk hT hω hω1 hs htw
    (by simpa [tightPreg, swlTau] using hcols) ⟨x0, (hsame x0).2 h0⟩ hint hrun
  exact ⟨x, (hsame x).1 hx, hl⟩

/-- C268: PDHG with the Huber wavelet regularizer, normalized transform, orthogonal wavelet and padding with zeros: the iterates converge to a minimiser of the data term plus the penalty. With both limits given and a data term that is finite everywhere nothing has to be assumed about solutions. -/
theorem C268_converges_huber_limits {w : FilterBank L} (h : OrthogonalWavelet w) (minApprox : Bool) (level : ℕ) (axes : Fin m → κ) {weight : ℝ} (hw : 0 < weight)
    (norm : DataTerm (Band m level × Idx (paddedShape level axes n))) {size : ℝ} (hsz : 0 < size)
    (row : Bool → Finset (Band m level × Idx (paddedShape level axes n))) (hn : norm.kind = .huber (.scalar size) none row)
    {M : ι → Idx n → ℝ} {S : Solver (Idx n) ι (Arr (Band m level × Idx (paddedShape level axes n)))} {b : Arr ι} {a : Args (Idx n) ι} {rnd : Arr ι}
    (hregs : S.regs = [normSwlReg w true false minApprox level axes weight norm])
    (hk : ConvexKind S.term.kind) (hkl : S.term.kind ≠ .kl) (hT : S.tolerance = none) (hω : 0 < S.relaxation) (hω1 : S.relaxation < 1)
    (hs : SensibleScale M a) (htw : ∀ i, trainWeight a i = 0 ∨ trainWeight a i = 1)
    (hcols : ∀ j, (∑ i, |M i j|) + (level * (2 ^ m - 1) + 1) * weight ≤ 100000)
    (hlo : a.lower.isSome) (hup : a.upper.isSome) (hlim : SensibleLimits a)
    {xs : ℕ → Arr (Idx n)} (hrun : ∀ N, ∃ info S', pdhg S (matrixOp M) b { a with iterations := N } true rnd = .ok (xs N, info, S')) :
    ∃ x, IsSolution S M a b [hubSwlPenalty w minApprox level axes weight size] x ∧ Tendsto xs atTop (𝓝 x) := by
  have hsame := fun x => same_penalty (S := S) (M := M) (a := a) (b := b)
    (g := (tightPreg (normSwlReg w true false minApprox level axes weight norm) (swtOp w true false level axes) (swtOpT w true level axes) (fun k => minApprox = false ∧ k.1 = none)
      (fun y : Arr (Band m level × Idx (paddedShape level axes n)) => ∑ k, hub size |y k|) weight (swlTau w true m level * weight)).pen)
    (g' := hubSwlPenalty w minApprox level axes weight size) (fun y => by simp only [tightPreg, hubSwlPenalty, keptBands]; congr!) x
  obtain ⟨x, hx, hl⟩ := C141_pdhg_converges_limits (gs := [tightPreg (normSwlReg w true false minApprox level axes weight norm) (swtOp w true false level axes) (swtOpT w true level axes) (fun k => minApprox = false ∧ k.1 = none)
      (fun y : Arr (Band m level × Idx (paddedShape level axes n)) => ∑ k, hub size |y k|) weight (swlTau w true m level * weight)]) hregs
    (by simp only [List.mem_singleton]; rintro g rfl; exact C268_huber (n := n) h minApprox level axes hw norm hsz row hn) hk hkl hT hω hω1 hs htw
    (by simpa [tightPreg, swlTau] using hcols) hlo hup hlim hrun
  exact ⟨x, (hsame x).1 hx, hl⟩

/-! ## Non-vacuity -/

/-- The singular value decomposition of a matrix with one row. -/
noncomputable def rowSvd {K : ℕ} (j0 : Fin K) (M : Fin 1 → Fin K → ℝ) : Svd 1 K 1 where
  U := fun _ _ => 1
  s := fun _ => Real.sqrt (∑ j, M 0 j ^ 2)
  Vt := fun _ j => if Real.sqrt (∑ j, M 0 j ^ 2) = 0 then (if j = j0 then 1 else 0) else M 0 j / Real.sqrt (∑ j, M 0 j ^ 2)

private theorem row_zero {K : ℕ} {v : Fin K → ℝ} (h : Real.sqrt (∑ j, v j ^ 2) = 0) (j : Fin K) : v j = 0 := by
  rw [Real.sqrt_eq_zero (sum_nonneg fun _ _ => sq_nonneg _), sum_eq_zero_iff_of_nonneg fun _ _ => sq_nonneg _] at h
  exact pow_eq_zero_iff (two_ne_zero) |>.1 (h j (mem_univ j))

private theorem rowSvd_valid {K : ℕ} (j0 : Fin K) (M : Fin 1 → Fin K → ℝ) : (rowSvd j0 M).Valid M := by
  refine ⟨fun a b => by simp [rowSvd, Subsingleton.elim a b], fun a b => ?_, fun _ => Real.sqrt_nonneg _, fun i j => ?_⟩
  · rw [if_pos (Subsingleton.elim a b)]
    simp only [rowSvd]
    by_cases h : Real.sqrt (∑ j, M 0 j ^ 2) = 0
    · simp [h]
    · simp only [h, if_false]
      have : ∑ j, M 0 j / Real.sqrt (∑ j, M 0 j ^ 2) * (M 0 j / Real.sqrt (∑ j, M 0 j ^ 2)) = (∑ j, M 0 j ^ 2) / Real.sqrt (∑ j, M 0 j ^ 2) ^ 2 := by
        rw [sum_div]
        exact sum_congr rfl fun j _ => by rw [← sq, div_pow]
      rw [this, Real.sq_sqrt (sum_nonneg fun _ _ => sq_nonneg _)]
      refine div_self fun h0 => h ?_
      rw [h0, Real.sqrt_zero]
  · rw [Subsingleton.elim i 0]
    simp only [rowSvd, Fin.sum_univ_one, one_mul]
    by_cases h : Real.sqrt (∑ j, M 0 j ^ 2) = 0
    · simp only [h, zero_mul]
      exact row_zero h j
    · simp only [h, if_false]
      field_simp

private theorem row_nuclear {K : ℕ} (j0 : Fin K) (M : Fin 1 → Fin K → ℝ) : IsNuclearNorm M (Real.sqrt (∑ j, M 0 j ^ 2)) := by
  constructor
  · refine ⟨fun _ j => (rowSvd j0 M).Vt 0 j, fun x => ?_, ?_⟩
    · simp only [Fin.sum_univ_one]
      have h1 := (rowSvd_valid j0 M).2.1 0 0
      simp only [if_true, ← sq] at h1
      have h2 := sum_mul_sq_le_sq_mul_sq univ (fun j => (rowSvd j0 M).Vt 0 j) x
      rwa [h1, one_mul] at h2
    · simp only [Fin.sum_univ_one, rowSvd]
      by_cases h : Real.sqrt (∑ j, M 0 j ^ 2) = 0
      · simp only [h, if_true]
        exact (sum_eq_zero fun j _ => by rw [row_zero h j, mul_zero]).symm
      · simp only [h, if_false]
        have : ∑ j, M 0 j / Real.sqrt (∑ j, M 0 j ^ 2) * M 0 j = (∑ j, M 0 j ^ 2) / Real.sqrt (∑ j, M 0 j ^ 2) := by
          rw [sum_div]
          exact sum_congr rfl fun j _ => by ring
        rw [this, Real.div_sqrt]
  · rintro t ⟨Y, hY, rfl⟩
    have h := hY fun j => M 0 j
    simp only [Fin.sum_univ_one] at h ⊢
    exact Real.le_sqrt_of_sq_le h

/-- The identity. -/
noncomputable def unitMatrix {V : Type} : V → V → ℝ := fun i j => if i = j then 1 else 0

private theorem runs_id {V Q : Type} [Fintype V] [Fintype Q] (v0 : V) (r : Reg V (Arr Q)) (hr : ∀ t j, 0 ≤ r.sigmaTau t j) (b : Arr V) :
    ∃ xs : ℕ → Arr V, ∀ N, ∃ info S', pdhg ⟨95 / 100, none, [r], .new .l2 none, .new .l2 none, none⟩ (matrixOp unitMatrix) b
      { iterations := N, lower := some (.scalar 0), upper := some (.scalar 20) } true (fun _ => 1) = .ok (xs N, info, S') := by
  let S : Solver V V (Arr Q) := ⟨95 / 100, none, [r], .new .l2 none, .new .l2 none, none⟩
  let a : Args V V := { iterations := 0, lower := some (.scalar 0), upper := some (.scalar 20) }
  obtain ⟨p, hp⟩ := scaling_regs_ok (M := unitMatrix) ⟨v0, v0, by simp [unitMatrix]⟩ S a ⟨rfl, rfl, rfl⟩ (by
    intro r' hr' t j
    simp only [S, List.mem_singleton] at hr'
    subst hr'
    exact hr t j) fun _ => 1
  have h : ∀ N, ∃ r, pdhg S (matrixOp unitMatrix) b { a with iterations := N } true (fun _ => 1) = .ok r := fun N =>
    pdhg_runs (p := p) hp rfl
  choose r hr using h
  exact ⟨fun N => (r N).1, fun N => ⟨(r N).2.1, (r N).2.2, hr N⟩⟩

/-- Two channels of 5 × 3 pixels between 0 and 20, Haar wavelet with two levels: the vectorial regularizer with the l1 norm of the bands' Euclidean norms of the channels. -/
example (b : Arr (Fin 2 × Idx ![5, 3])) : ∃ (S : Solver (Fin 2 × Idx ![5, 3]) (Fin 2 × Idx ![5, 3]) _) (xs : ℕ → Arr (Fin 2 × Idx ![5, 3])) (x : Arr (Fin 2 × Idx ![5, 3])),
    S.regs = [vl1wlReg haarBank true false true 2 (id : Fin 2 → Fin 2) 3 (.ofTwo false) (.ofTwo true)] ∧ Tendsto xs atTop (𝓝 x) ∧
    IsSolution S unitMatrix { iterations := 0, lower := some (.scalar 0), upper := some (.scalar 20) } b [vl1wlPenalty haarBank true 2 id 3 false true] x := by
  obtain ⟨xs, hrun⟩ := runs_id (0, fun k => ⟨0, by fin_cases k <;> simp⟩) (vl1wlReg haarBank true false true 2 (id : Fin 2 → Fin 2) 3 (.ofTwo false) (.ofTwo true)) (fun t j => by
    have := swlTau_ge_one haarBank (m := 2) 2
    simp only [vl1wlReg, lnswlReg, normSwlReg]; linarith) b
  obtain ⟨x, hx, hl⟩ := C268_converges_vectorial_limits haar_orthogonal true 2 (id : Fin 2 → Fin 2) (by norm_num : (0 : ℝ) < 3) false true
    (S := ⟨95 / 100, none, [vl1wlReg haarBank true false true 2 (id : Fin 2 → Fin 2) 3 (.ofTwo false) (.ofTwo true)], .new .l2 none, .new .l2 none, none⟩)
    (a := { iterations := 0, lower := some (.scalar 0), upper := some (.scalar 20) })
    rfl trivial (by simp [DataTerm.new]) rfl (by norm_num) (by norm_num)
    ⟨by simp, by simp, by simp, by intro i; simp [unitMatrix, abs_ite], by intro i; simp [unitMatrix, abs_ite]⟩ (fun i => Or.inr (by simp [trainWeight]))
    (by intro j; simp [unitMatrix, abs_ite]; norm_num) rfl rfl ⟨by rintro l u ⟨⟩ ⟨⟩ j; simp [Attr.get], by simp, by simp, by simp⟩ hrun
  exact ⟨_, xs, x, rfl, hl, hx⟩

/-- One channel of three pixels, Haar wavelet with one level: the nuclear norm of a row is its Euclidean norm. -/
example (b : Arr (Fin 1 × Idx ![3])) : ∃ (S : Solver (Fin 1 × Idx ![3]) (Fin 1 × Idx ![3]) _) (xs : ℕ → Arr (Fin 1 × Idx ![3])) (x : Arr (Fin 1 × Idx ![3])),
    S.regs = [lnswlReg haarBank true false false 1 (id : Fin 1 → Fin 1) 3 (Fintype.equivFin (Band 1 1)).symm (rowSvd (Fintype.equivFin (Band 1 1) none)) (.new .l1 none) none] ∧ Tendsto xs atTop (𝓝 x) ∧
    IsSolution S unitMatrix { iterations := 0, lower := some (.scalar 0), upper := some (.scalar 20) } b [lnswlPenalty haarBank false 1 id 3 (Fintype.equivFin (Band 1 1)).symm fun M => Real.sqrt (∑ j, M 0 j ^ 2)] x := by
  obtain ⟨xs, hrun⟩ := runs_id (0, fun k => ⟨0, by fin_cases k; simp⟩) (lnswlReg haarBank true false false 1 (id : Fin 1 → Fin 1) 3 (Fintype.equivFin (Band 1 1)).symm (rowSvd (Fintype.equivFin (Band 1 1) none)) (.new .l1 none) none) (fun t j => by
    have := swlTau_ge_one haarBank (m := 1) 1
    simp only [vl1wlReg, lnswlReg, normSwlReg]; linarith) b
  obtain ⟨x, hx, hl⟩ := C268_converges_nuclear_limits haar_orthogonal false 1 (id : Fin 1 → Fin 1) (by norm_num : (0 : ℝ) < 3) (Fintype.equivFin (Band 1 1)).symm (rowSvd (Fintype.equivFin (Band 1 1) none))
    (rowSvd_valid _) (.new .l1 none) rfl rfl none (row_nuclear (Fintype.equivFin (Band 1 1) none))
    (S := ⟨95 / 100, none, [lnswlReg haarBank true false false 1 (id : Fin 1 → Fin 1) 3 (Fintype.equivFin (Band 1 1)).symm (rowSvd (Fintype.equivFin (Band 1 1) none)) (.new .l1 none) none], .new .l2 none, .new .l2 none, none⟩)
    (a := { iterations := 0, lower := some (.scalar 0), upper := some (.scalar 20) })
    rfl trivial (by simp [DataTerm.new]) rfl (by norm_num) (by norm_num)
    ⟨by simp, by simp, by simp, by intro i; simp [unitMatrix, abs_ite], by intro i; simp [unitMatrix, abs_ite]⟩ (fun i => Or.inr (by simp [trainWeight]))
    (by intro j; simp [unitMatrix, abs_ite]; norm_num) rfl rfl ⟨by rintro l u ⟨⟩ ⟨⟩ j; simp [Attr.get], by simp, by simp, by simp⟩ hrun
  exact ⟨_, xs, x, rfl, hl, hx⟩

/-- 5 × 3 pixels, Haar wavelet with two levels, the approximation not minimised. -/
example (b : Arr (Idx ![5, 3])) : ∃ (S : Solver (Idx ![5, 3]) (Idx ![5, 3]) _) (xs : ℕ → Arr (Idx ![5, 3])) (x : Arr (Idx ![5, 3])),
    S.regs = [normSwlReg haarBank true false false 2 (id : Fin 2 → Fin 2) 3 (.new (.huber (.scalar (1 / 2)) none fun _ => ∅) none)] ∧ Tendsto xs atTop (𝓝 x) ∧
    IsSolution S unitMatrix { iterations := 0, lower := some (.scalar 0), upper := some (.scalar 20) } b [hubSwlPenalty haarBank false 2 id 3 (1 / 2)] x := by
  obtain ⟨xs, hrun⟩ := runs_id (fun k => ⟨0, by fin_cases k <;> simp⟩) (normSwlReg haarBank true false false 2 (id : Fin 2 → Fin 2) 3 (.new (.huber (.scalar (1 / 2)) none fun _ => ∅) none)) (fun t j => by
    have := swlTau_ge_one haarBank (m := 2) 2
    simp only [vl1wlReg, lnswlReg, normSwlReg]; linarith) b
  obtain ⟨x, hx, hl⟩ := C268_converges_huber_limits haar_orthogonal false 2 (id : Fin 2 → Fin 2) (by norm_num : (0 : ℝ) < 3)
    (.new (.huber (.scalar (1 / 2)) none fun _ => ∅) none) (by norm_num : (0 : ℝ) < 1 / 2) (fun _ => ∅) rfl
    (S := ⟨95 / 100, none, [normSwlReg haarBank true false false 2 (id : Fin 2 → Fin 2) 3 (.new (.huber (.scalar (1 / 2)) none fun _ => ∅) none)], .new .l2 none, .new .l2 none, none⟩)
    (a := { iterations := 0, lower := some (.scalar 0), upper := some (.scalar 20) })
    rfl trivial (by simp [DataTerm.new]) rfl (by norm_num) (by norm_num)
    ⟨by simp, by simp, by simp, by intro i; simp [unitMatrix, abs_ite], by intro i; simp [unitMatrix, abs_ite]⟩ (fun i => Or.inr (by simp [trainWeight]))
    (by intro j; simp [unitMatrix, abs_ite]; norm_num) rfl rfl ⟨by rintro l u ⟨⟩ ⟨⟩ j; simp [Attr.get], by simp, by simp, by simp⟩ hrun
  exact ⟨_, xs, x, rfl, hl, hx⟩

end Verif
