import Mathlib.Data.List.GetD
import Mathlib.Analysis.SpecialFunctions.Log.Deriv
import Verif.Model.Processing

/-!
# Variances of counts (C105, C106), weights from variances (C107), flat fields (C108)
-/

namespace Verif

/-- First-order propagation of the variances `vx` and `vy` of two independent variables through `f`, at the point `(x, y)`. -/
noncomputable def deltaVariance (f : ℝ → ℝ → ℝ) (x y vx vy : ℝ) : ℝ :=
  (deriv (fun t => f t y) x) ^ 2 * vx + (deriv (fun t => f x t) y) ^ 2 * vy

theorem eps_pos' : 0 < eps := by unfold eps; norm_num

/-! ## C105 -/

/-- **C105.** For counts above the smallest ones, `compute_variance_poisson` is the first-order variance of the ratio `Is / I0`, where the
variance of `Is` is `Is`, and that of `I0` is `I0` or the given one; with the normalisation it is multiplied by the mean of the
reference. It is never negative, whatever the counts, for a given variance that is not. -/
theorem C105_variance_poisson (Is I0 : ℝ) (v0 m : Option ℝ) :
    (eps ≤ Is → eps ≤ I0 → variancePoisson Is I0 v0 m =
      deltaVariance (fun i o => i / o) Is I0 Is (v0.getD I0) * m.getD 1) ∧
    ((∀ v ∈ v0, 0 ≤ v) → (∀ v ∈ m, 0 ≤ v) → 0 ≤ variancePoisson Is I0 v0 m) := by
  have he := eps_pos'
  constructor
  · intro hi ho
    have hIs : 0 < Is := lt_of_lt_of_le he hi
    have hI0 : 0 < I0 := lt_of_lt_of_le he ho
    have d1 : deriv (fun t => t / I0) Is = 1 / I0 := by simp
    have d2 : deriv (fun t => Is / t) I0 = -Is / I0 ^ 2 := by
      have := (hasDerivAt_inv hI0.ne').const_mul Is
      have h2 : HasDerivAt (fun t => Is / t) (Is * -(I0 ^ 2)⁻¹) I0 := by simpa [div_eq_mul_inv] using this
      rw [h2.deriv]
      ring
    unfold variancePoisson deltaVariance
    simp only
    rw [d1, d2, max_eq_left hi, max_eq_left ho, abs_of_pos hIs, abs_of_pos hI0]
    have key : Is ^ 2 / I0 ^ 2 * (Is / Is ^ 2 + v0.getD I0 / I0 ^ 2) = (1 / I0) ^ 2 * Is + (-Is / I0 ^ 2) ^ 2 * v0.getD I0 := by
      field_simp
    rw [key]
    cases m with
    | none => exact (mul_one _).symm
    | some v => rfl
  · intro hv hm
    unfold variancePoisson
    simp only
    have h0 : 0 ≤ v0.getD |I0| := by
      cases v0 with
      | none => exact abs_nonneg _
      | some v => exact hv v rfl
    have key : 0 ≤ max Is eps ^ 2 / max I0 eps ^ 2 * (|Is| / max Is eps ^ 2 + v0.getD |I0| / max I0 eps ^ 2) := by positivity
    cases m with
    | none => exact key
    | some v => exact mul_nonneg key (hm v rfl)

/-- Not vacuous: 4 counts against 2. -/
example : variancePoisson 4 2 none none = 3 := by
  unfold variancePoisson eps
  simp only
  rw [max_eq_left (by norm_num), max_eq_left (by norm_num)]
  norm_num

/-! ## C106 -/

/-- **C106 (violated).** `compute_variance_transmission` is the first-order variance of the linearised attenuation `-log(Is / I0)`. -/
theorem C106_variance_transmission_violated :
    ¬ ∀ Is I0 : ℝ, eps ≤ Is → eps ≤ I0 →
      varianceTransmission Is I0 none none = deltaVariance (fun i o => -Real.log (i / o)) Is I0 Is I0 := by
  intro h
  have h1 := h 1 2 (by unfold eps; norm_num) (by unfold eps; norm_num)
  have d1 : deriv (fun t : ℝ => -Real.log (t / 2)) 1 = -1 := by
    have : HasDerivAt (fun t : ℝ => -Real.log (t / 2)) (-((1 / 2) / (1 / 2))) 1 :=
      (((hasDerivAt_id (1 : ℝ)).div_const 2).log (by norm_num)).neg
    rw [this.deriv]; norm_num
  have d2 : deriv (fun t : ℝ => -Real.log (1 / t)) 2 = 1 / 2 := by
    have e : (fun t : ℝ => -Real.log (1 / t)) = Real.log := by funext t; simp
    rw [e, Real.deriv_log]; norm_num
  unfold varianceTransmission deltaVariance at h1
  rw [d1, d2, max_eq_left (by unfold eps; norm_num), max_eq_left (by unfold eps; norm_num)] at h1
  norm_num at h1

/-- **C106 (partial).** It is that variance multiplied by the transmission `Is / I0`, and by the mean of the reference with the
normalisation; and it is not negative. -/
theorem C106_variance_transmission_partial (Is I0 : ℝ) (v0 m : Option ℝ) :
    (eps ≤ Is → eps ≤ I0 → varianceTransmission Is I0 v0 m =
      Is / I0 * deltaVariance (fun i o => -Real.log (i / o)) Is I0 Is (v0.getD I0) * m.getD 1) ∧
    ((∀ v ∈ v0, 0 ≤ v) → (∀ v ∈ m, 0 ≤ v) → 0 ≤ varianceTransmission Is I0 v0 m) := by
  have he := eps_pos'
  constructor
  · intro hi ho
    have hIs : 0 < Is := lt_of_lt_of_le he hi
    have hI0 : 0 < I0 := lt_of_lt_of_le he ho
    have d1 : deriv (fun t : ℝ => -Real.log (t / I0)) Is = -(1 / Is) := by
      have : HasDerivAt (fun t : ℝ => -Real.log (t / I0)) (-((1 / I0) / (Is / I0))) Is :=
        (((hasDerivAt_id Is).div_const I0).log (by simp; exact ⟨hIs.ne', hI0.ne'⟩)).neg
      rw [this.deriv]; field_simp
    have d2 : deriv (fun t : ℝ => -Real.log (Is / t)) I0 = 1 / I0 := by
      have hd : HasDerivAt (fun t => Is / t) (Is * -(I0 ^ 2)⁻¹) I0 := by
        simpa [div_eq_mul_inv] using (hasDerivAt_inv hI0.ne').const_mul Is
      have : HasDerivAt (fun t : ℝ => -Real.log (Is / t)) (-((Is * -(I0 ^ 2)⁻¹) / (Is / I0))) I0 := (hd.log (by positivity)).neg
      rw [this.deriv]; field_simp
    unfold varianceTransmission deltaVariance
    simp only
    rw [d1, d2, max_eq_left hi, max_eq_left ho, abs_of_pos hIs, abs_of_pos hI0]
    have key : Is / I0 * (Is / Is ^ 2 + v0.getD I0 / I0 ^ 2) = Is / I0 * ((-(1 / Is)) ^ 2 * Is + (1 / I0) ^ 2 * v0.getD I0) := by
      field_simp
    rw [key]
    cases m with
    | none => exact (mul_one _).symm
    | some v => rfl
  · intro hv hm
    unfold varianceTransmission
    simp only
    have h0 : 0 ≤ v0.getD |I0| := by
      cases v0 with
      | none => exact abs_nonneg _
      | some v => exact hv v rfl
    have hb : 0 < max Is eps := lt_max_of_lt_right he
    have ho : 0 < max I0 eps := lt_max_of_lt_right he
    have key : 0 ≤ max Is eps / max I0 eps * (|Is| / max Is eps ^ 2 + v0.getD |I0| / max I0 eps ^ 2) := by positivity
    cases m with
    | none => exact key
    | some v => exact mul_nonneg key (hm v rfl)

/-! ## C107 -/

theorem invWeight_mono (o : WeightOpts) (f v v' : ℝ) (hf : 0 < f) (h : v ≤ v') :
    0 < invWeight o f v ∧ invWeight o f v ≤ invWeight o f v' ∧
      (o.normalized = true → 1 ≤ invWeight o f v ∧ (v ≤ f → invWeight o f v = 1)) := by
  have hm : max v f ≤ max v' f := max_le_max h le_rfl
  have hp : 0 < max v f := lt_max_of_lt_right hf
  have h1 : 1 ≤ max v f / f := by rw [le_div_iff₀ hf, one_mul]; exact le_max_right _ _
  have hd : max v f / f ≤ max v' f / f := div_le_div_of_nonneg_right hm hf.le
  have he : v ≤ f → max v f / f = 1 := fun h => by rw [max_eq_right h, div_self hf.ne']
  have hs1 : 1 ≤ Real.sqrt (max v f / f) := Real.one_le_sqrt.2 h1
  obtain ⟨p, n, s, l⟩ := o
  unfold invWeight
  cases n <;> cases s <;> cases l <;>
    simp only [if_true, if_false, Bool.false_eq_true, add_zero, false_implies, and_true, true_implies] 
  · exact ⟨hp, hm⟩
  · exact ⟨add_pos_of_nonneg_of_pos (Real.log_nonneg (by linarith)) one_pos,
      by linarith [Real.log_le_log (by linarith : (0 : ℝ) < max v f + 1) (by linarith : max v f + 1 ≤ max v' f + 1)]⟩
  · exact ⟨Real.sqrt_pos.2 hp, Real.sqrt_le_sqrt hm⟩
  · have := Real.sqrt_le_sqrt hm
    have := Real.sqrt_pos.2 hp
    exact ⟨add_pos_of_nonneg_of_pos (Real.log_nonneg (by linarith)) one_pos,
      by linarith [Real.log_le_log (by linarith : (0 : ℝ) < √(max v f) + 1) (by linarith : √(max v f) + 1 ≤ √(max v' f) + 1)]⟩
  · exact ⟨by linarith, hd, h1, he⟩
  · refine ⟨add_pos_of_nonneg_of_pos (Real.log_nonneg h1) one_pos, by linarith [Real.log_le_log (by linarith) hd],
      by linarith [Real.log_nonneg h1], fun hv => by rw [he hv, Real.log_one, zero_add]⟩
  · exact ⟨by linarith, Real.sqrt_le_sqrt hd, hs1, fun hv => by rw [he hv, Real.sqrt_one]⟩
  · refine ⟨add_pos_of_nonneg_of_pos (Real.log_nonneg hs1) one_pos,
      by linarith [Real.log_le_log (by linarith) (Real.sqrt_le_sqrt hd)],
      by linarith [Real.log_nonneg hs1], fun hv => by rw [he hv, Real.sqrt_one, Real.log_one, zero_add]⟩

/-- The floor exists, is positive, and is not below the smallest positive variance, which is that of some pixel. -/
theorem weightFloor_spec (vals : List ℝ) (p : ℝ) (hp : p ≤ 1) (h0 : ∀ v ∈ vals, 0 ≤ v) (hpos : ∃ v ∈ vals, 0 < v) :
    ∃ f, weightFloor vals p = some f ∧ 0 < f ∧ ∃ v ∈ vals, v ≤ f := by
  obtain ⟨v, hv, hv0⟩ := hpos
  have hs : 0 < vals.sum := by
    have := List.single_le_sum h0 v hv
    linarith
  have hne : vals ≠ [] := List.ne_nil_of_mem hv
  have hperm := List.mergeSort_perm vals (fun a b => decide (a ≤ b))
  set s := vals.mergeSort (fun a b => decide (a ≤ b)) with hsdef
  have hsum : s.sum = vals.sum := hperm.sum_eq
  have hlen : s.length = vals.length := hperm.length_eq
  have hl0 : 0 < s.length := by rw [hlen]; exact List.length_pos_of_ne_nil hne
  have hlt : ((List.range s.length).filter (fun k => decide ((s.take (k + 1)).sum / s.sum < p))).length < s.length := by
    have h1 : ((List.range s.length).filter (fun k => decide ((s.take (k + 1)).sum / s.sum < p))).length < (List.range s.length).length := by
      refine List.length_filter_lt_length_iff_exists.2 ⟨s.length - 1, List.mem_range.2 (by omega), ?_⟩
      have : s.length - 1 + 1 = s.length := by omega
      rw [this, List.take_length, div_self (by rw [hsum]; exact hs.ne')]
      simpa using hp
    simpa using h1
  have hmin : ∃ m, weightMinVal vals p = some m ∧ 0 < m := by
    unfold weightMinVal
    rw [← hsdef]
    simp only
    rw [min_eq_left hlt.le, List.getElem?_eq_getElem hlt]
    exact ⟨_, rfl, lt_max_of_lt_right eps_pos'⟩
  obtain ⟨m, hm, hm0⟩ := hmin
  have hq : ∃ q, (vals.filter (fun v => decide (0 < v))).min? = some q := by
    have : vals.filter (fun v => decide (0 < v)) ≠ [] := List.ne_nil_of_mem (List.mem_filter.2 ⟨hv, by simpa using hv0⟩)
    cases h : (vals.filter (fun v => decide (0 < v))).min? with
    | none => exact absurd (List.min?_eq_none_iff.1 h) this
    | some q => exact ⟨q, rfl⟩
  obtain ⟨q, hq⟩ := hq
  have hqm := List.mem_filter.1 (List.min?_mem hq)
  refine ⟨max q m, by unfold weightFloor; rw [hm]; simp [hq], lt_max_of_lt_right hm0, q, hqm.1, le_max_left _ _⟩

/-- Whether the pixel `k` is valid. -/
def validPixel (mask : Option (List Bool)) (k : ℕ) : Prop := ∀ m ∈ mask, m.getD k false = true

/-- **C107.** If some valid pixel has a variance that is not zero, the weights exist, for any percentile up to one and any options: one
per pixel, positive at the valid pixels and zero at the others, not larger where the variance is larger; and with the normalisation the
largest is one. -/
theorem C107_variance_weights (o : WeightOpts) (hp : o.percentile ≤ 1) (variance : List ℝ) (mask : Option (List Bool))
    (hm : ∀ m ∈ mask, m.length = variance.length)
    (hpos : ∃ k, k < variance.length ∧ validPixel mask k ∧ variance.getD k 0 ≠ 0) :
    ∃ ws, varianceWeight o variance mask = some ws ∧ ws.length = variance.length ∧
      (∀ k, k < variance.length → (validPixel mask k → 0 < ws.getD k 0) ∧ (¬ validPixel mask k → ws.getD k 0 = 0)) ∧
      (∀ k l, k < variance.length → l < variance.length → validPixel mask k → validPixel mask l →
        |variance.getD k 0| ≤ |variance.getD l 0| → ws.getD l 0 ≤ ws.getD k 0) ∧
      (o.normalized = true → (∀ k, k < variance.length → ws.getD k 0 ≤ 1) ∧ ∃ k, k < variance.length ∧ validPixel mask k ∧ ws.getD k 0 = 1) := by
  set a := variance.map (fun v => |v|) with ha
  have hal : a.length = variance.length := List.length_map _
  set vals : List ℝ := mask.elim a (fun m => ((a.zip m).filter (fun q => q.2)).map Prod.fst) with hvals
  have hag : ∀ k, k < variance.length → a[k]? = some |variance.getD k 0| := by
    intro k hk
    rw [ha, List.getElem?_map, List.getElem?_eq_getElem hk, List.getD_eq_getElem _ _ hk]
    rfl
  have hmem : ∀ x, x ∈ vals ↔ ∃ k, k < variance.length ∧ validPixel mask k ∧ |variance.getD k 0| = x := by
    intro x
    cases mask with
    | none =>
      simp only [hvals, Option.elim]
      rw [List.mem_iff_getElem?]
      constructor
      · rintro ⟨k, hk⟩
        have hk' : k < variance.length := by
          rw [← hal]; exact (List.getElem?_eq_some_iff.1 hk).1
        refine ⟨k, hk', fun m hm => by simp at hm, ?_⟩
        rw [hag k hk'] at hk
        exact Option.some.inj hk
      · rintro ⟨k, hk, -, hx⟩
        exact ⟨k, by rw [hag k hk, hx]⟩
    | some m =>
      have hml := hm m rfl
      simp only [hvals, Option.elim]
      rw [List.mem_map]
      constructor
      · rintro ⟨⟨y, b⟩, hq, rfl⟩
        rw [List.mem_filter] at hq
        obtain ⟨k, hk⟩ := List.mem_iff_getElem?.1 hq.1
        rw [List.getElem?_zip_eq_some] at hk
        have hk' : k < variance.length := by rw [← hal]; exact (List.getElem?_eq_some_iff.1 hk.1).1
        refine ⟨k, hk', ?_, ?_⟩
        · intro m' hm'
          cases hm'
          rw [List.getD_eq_getElem?_getD, hk.2]
          exact hq.2
        · have := hk.1
          rw [hag k hk'] at this
          exact Option.some.inj this
      · rintro ⟨k, hk, hv, hx⟩
        have hb := hv m rfl
        refine ⟨(x, true), List.mem_filter.2 ⟨List.mem_iff_getElem?.2 ⟨k, ?_⟩, rfl⟩, rfl⟩
        rw [List.getElem?_zip_eq_some]
        refine ⟨by rw [hag k hk, hx], ?_⟩
        rw [List.getD_eq_getElem _ _ (by omega)] at hb
        rw [List.getElem?_eq_getElem (by omega), hb]
  obtain ⟨f, hf, hf0, v, hv, hvf⟩ := weightFloor_spec vals o.percentile hp
    (fun x hx => by obtain ⟨k, -, -, rfl⟩ := (hmem x).1 hx; exact abs_nonneg _)
    (by
      obtain ⟨k, hk, hk1, hk2⟩ := hpos
      exact ⟨_, (hmem _).2 ⟨k, hk, hk1, rfl⟩, abs_pos.2 hk2⟩)
  set w := a.map (fun v => 1 / invWeight o f v) with hw
  have hwl : w.length = variance.length := by rw [hw, List.length_map, hal]
  set ws : List ℝ := mask.elim w (fun m => (w.zip m).map (fun q => q.1 * (if q.2 then 1 else 0))) with hws
  have hwg : ∀ k, k < variance.length → w[k]? = some (1 / invWeight o f |variance.getD k 0|) := by
    intro k hk
    rw [hw, List.getElem?_map, hag k hk]
    rfl
  have hval : ∀ k, k < variance.length → (validPixel mask k → ws.getD k 0 = 1 / invWeight o f |variance.getD k 0|) ∧
      (¬ validPixel mask k → ws.getD k 0 = 0) := by
    intro k hk
    cases mask with
    | none =>
      refine ⟨fun _ => ?_, fun h => absurd (fun m hm => by simp at hm) h⟩
      simp only [hws, Option.elim]
      rw [List.getD_eq_getElem?_getD, hwg k hk]
      rfl
    | some m =>
      have hml := hm m rfl
      have hkm : k < m.length := by omega
      have : ws[k]? = some ((1 / invWeight o f |variance.getD k 0|) * (if m.getD k false then 1 else 0)) := by
        simp only [hws, Option.elim]
        rw [List.getElem?_map]
        have : (w.zip m)[k]? = some (1 / invWeight o f |variance.getD k 0|, m.getD k false) := by
          rw [List.getElem?_zip_eq_some]
          exact ⟨hwg k hk, by rw [List.getD_eq_getElem _ _ hkm, List.getElem?_eq_getElem hkm]⟩
        rw [this]
        rfl
      rw [List.getD_eq_getElem?_getD, this]
      refine ⟨fun h => ?_, fun h => ?_⟩
      · have := h m rfl
        rw [this, if_pos rfl, mul_one]
        rfl
      · have h2 : m.getD k false = false := by
          by_contra h3
          refine h fun m' hm' => ?_
          cases hm'
          simpa using h3
        rw [h2, if_neg (by simp), mul_zero]
        rfl
  refine ⟨ws, ?_, ?_, ?_, ?_, ?_⟩
  · show (weightFloor vals o.percentile).map _ = some ws
    rw [hf]
    rfl
  · cases mask with
    | none => exact hwl
    | some m =>
      simp only [hws, Option.elim, List.length_map, List.length_zip]
      rw [hwl, hm m rfl, min_self]
  · intro k hk
    exact ⟨fun h => by rw [(hval k hk).1 h]; exact one_div_pos.2 (invWeight_mono o f _ _ hf0 le_rfl).1, (hval k hk).2⟩
  · intro k l hk hl vk vl h
    rw [(hval k hk).1 vk, (hval l hl).1 vl]
    obtain ⟨p1, p2, -⟩ := invWeight_mono o f _ _ hf0 h
    exact one_div_le_one_div_of_le p1 p2
  · intro hn
    constructor
    · intro k hk
      by_cases h : validPixel mask k
      · rw [(hval k hk).1 h, div_le_one (invWeight_mono o f _ _ hf0 le_rfl).1]
        exact ((invWeight_mono o f _ _ hf0 le_rfl).2.2 hn).1
      · rw [(hval k hk).2 h]; norm_num
    · obtain ⟨k, hk, hk1, hk2⟩ := (hmem v).1 hv
      refine ⟨k, hk, hk1, ?_⟩
      rw [(hval k hk).1 hk1, ((invWeight_mono o f _ _ hf0 le_rfl).2.2 hn).2 (by rw [hk2]; exact hvf), div_one]

/-- Not vacuous: two pixels, one of which is masked. -/
example : ∃ ws, varianceWeight ⟨0.001, true, false, false⟩ [2, 4] (some [true, false]) = some ws ∧ ws.getD 1 0 = 0 := by
  obtain ⟨ws, h, -, h2, -⟩ := C107_variance_weights ⟨0.001, true, false, false⟩ (by norm_num) [2, 4] (some [true, false])
    (by simp) ⟨0, by simp, by intro m hm; cases hm; rfl, by simp⟩
  refine ⟨ws, h, (h2 1 (by simp)).2 fun hv => ?_⟩
  have := hv [true, false] rfl
  simp at this

/-! ## C108 -/

/-- **C108.** Flat-field correction of an image of intensity `T` times that of the flats, over the dark current, gives the transmission
`T`, whatever the flats and the dark image; and its linearisation gives back the attenuation. A cap and a lower limit only act beyond them. -/
theorem C108_flat_field {K : ℕ} (hK : 0 < K) (flats : Fin K → ℝ) (dark : Option ℝ) (T : ℝ) (cap lower : Option ℝ)
    (hf : (∑ k, flats k) / K ≠ dark.getD 0) (hc : ∀ c ∈ cap, T ≤ c) :
    applyFlatField (T * ((∑ k, flats k) / K - dark.getD 0) + dark.getD 0) flats dark cap = T ∧
    (∀ c p, applyFlatField p flats dark (some c) ≤ c) ∧
    (∀ mu : ℝ, T = Real.exp (-mu) → (∀ l ∈ lower, l ≤ mu) → applyMinusLog lower T = mu) := by
  have hK' : (K : ℝ) ≠ 0 := by positivity
  have e : (∑ k, (flats k - dark.getD 0)) / K = (∑ k, flats k) / K - dark.getD 0 := by
    rw [Finset.sum_sub_distrib, Finset.sum_const, Finset.card_univ, Fintype.card_fin, nsmul_eq_mul]
    field_simp
  refine ⟨?_, ?_, ?_⟩
  · unfold applyFlatField
    simp only
    rw [e, add_sub_cancel_right, mul_div_assoc, div_self (sub_ne_zero.2 hf), mul_one]
    cases cap with
    | none => rfl
    | some c => exact min_eq_left (hc c rfl)
  · intro c p
    exact min_le_right _ _
  · intro mu hmu hl
    have : -Real.log T = mu := by rw [hmu, Real.log_exp, neg_neg]
    unfold applyMinusLog
    rw [this]
    cases lower with
    | none => rfl
    | some l => exact max_eq_left (hl l rfl)

/-- Not vacuous: two flats of mean 5 over a dark image of 1. -/
example : applyFlatField (1 / 2 * ((∑ k, ![4, 6] k) / (2 : ℕ) - 1) + 1) ![4, 6] (some 1) none = 1 / 2 :=
  (C108_flat_field (K := 2) (by norm_num) ![4, 6] (some 1) (1 / 2) none none (by simp; norm_num) (by simp)).1

end Verif
