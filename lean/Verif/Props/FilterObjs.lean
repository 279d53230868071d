import Verif.Model.FilterObjs
import Verif.Props.Filters

/-!
# C211, C212: FBP filters and custom filters as objects
-/

namespace Verif

open ZMod Complex

theorem applyFilterC_real (P : ℕ) [NeZero P] (rfft : Bool) (mode : RowPad) (N : ℕ) (F : ℕ → ℝ) (data : ℕ → ℝ) (j : ℕ) :
    applyFilterC P rfft mode N (fun l => (F l : ℂ)) data j = applyFilterAt P rfft mode N F data j := rfl

theorem toReal_congr (rfft : Bool) (P : ℕ) [NeZero P] (Y Y' : ℕ → ℂ) (h : ∀ l, l < numFreqs rfft P → Y l = Y' l) (j : ℕ) :
    toReal rfft P Y j = toReal rfft P Y' j := by
  unfold toReal
  cases rfft with
  | true =>
    simp only [if_true]
    exact irfftDefault_congr P Y Y' (fun l hl => h l (by simp only [numFreqs, if_true]; omega)) j
  | false =>
    simp only [Bool.false_eq_true, if_false]
    congr 3
    funext l
    rw [h l.val (by simp only [numFreqs, Bool.false_eq_true, if_false]; exact ZMod.val_lt l)]

theorem applyFilterC_congr (P : ℕ) [NeZero P] (rfft : Bool) (mode : RowPad) (N : ℕ) (F G : ℕ → ℂ) (h : ∀ l, l < numFreqs rfft P → F l = G l)
    (data : ℕ → ℝ) (j : ℕ) : applyFilterC P rfft mode N F data j = applyFilterC P rfft mode N G data j := by
  unfold applyFilterC
  exact toReal_congr rfft P _ _ (fun l hl => by rw [h l hl]) j

theorem numFreqs_pos (rfft : Bool) (N : ℕ) : 1 < numFreqs rfft (paddingSize N) := by
  have := (paddingSize_spec N).2.1
  unfold numFreqs
  split <;> omega

/-- The FBP filter for the data of `A` angles. -/
noncomputable def Spec.fbpFiltered {A : Type} [Fintype A] (kernel : ℕ → String → ℕ → ℝ) (name : String) (rfft : Bool) (mode : RowPad) (N : ℕ)
    (data : A → ℕ → ℝ) (a : A) (j : ℕ) : ℝ :=
  applyFilter rfft mode N (some fun l => kernel (paddingSize N) name l * Real.pi / (2 * Fintype.card A)) (data a) j

theorem callFbp_eq {A : Type} [Fintype A] (kernel : ℕ → String → ℕ → ℝ) (name : String) (o : FilterObj) (N : ℕ) (data : A → ℕ → ℝ) :
    (o.callFbp kernel name N data).2 = some [Spec.fbpFiltered kernel name o.rfft o.mode N data] := by
  have hlen : (fbpRow kernel name o.rfft (Fintype.card A) N).length = numFreqs o.rfft (paddingSize N) := by simp [fbpRow]
  unfold FilterObj.callFbp FilterObj.apply
  simp only
  rw [if_pos (by intro row hrow; simp only [List.mem_singleton] at hrow; right; rw [hrow, hlen])]
  simp only [List.map_cons, List.map_nil]
  congr 2
  funext a j
  unfold Spec.fbpFiltered applyFilter
  rw [← applyFilterC_real]
  apply applyFilterC_congr
  intro l hl
  unfold rowEntry
  rw [hlen, if_neg (by have := numFreqs_pos o.rfft N; omega)]
  simp [fbpRow, List.getD, hl]

/-- **C211.** The FBP filter is that of the data it is called with, whatever was filtered before (`o`, `o'` are any two states of the object);
it is applied to every row by itself, and linear in the data. -/
theorem C211_fbp_filter {A : Type} [Fintype A] (kernel : ℕ → String → ℕ → ℝ) (name : String) (o o' : FilterObj) (hr : o.rfft = o'.rfft)
    (hm : o.mode = o'.mode) (N : ℕ) (x y : A → ℕ → ℝ) (c d : ℝ) :
    ∃ f : (A → ℕ → ℝ) → A → ℕ → ℝ,
      (∀ z, (o.callFbp kernel name N z).2 = some [f z] ∧ (o'.callFbp kernel name N z).2 = some [f z] ∧
        ((o.callFbp kernel name N z).1.callFbp kernel name N z).2 = some [f z]) ∧
      (∀ a j, f (fun a j => c * x a j + d * y a j) a j = c * f x a j + d * f y a j) ∧
      (∀ a, x a = y a → f x a = f y a) := by
  refine ⟨Spec.fbpFiltered kernel name o.rfft o.mode N, fun z => ⟨callFbp_eq _ _ _ _ _, ?_, ?_⟩, fun a j => ?_, fun a h => ?_⟩
  · rw [callFbp_eq, hr, hm]
  · exact callFbp_eq _ _ _ _ _
  · unfold Spec.fbpFiltered
    exact (C112_filter_linear_selfadjoint o.rfft o.mode N (fun l => kernel (paddingSize N) name l * Real.pi / (2 * Fintype.card A))
      (fun _ => 0) (x a) (y a) c d).1 j
  · funext j
    unfold Spec.fbpFiltered
    rw [h]

/-- **C211.** Each angle measured `k` times: every one of the `k` filtered rows is the filtered row of the single measurement divided by `k`,
so that their sum, and hence the back-projection, is unchanged. -/
theorem C211_repeated_angles {A : Type} [Fintype A] (kernel : ℕ → String → ℕ → ℝ) (name : String) (o : FilterObj) (N : ℕ) (x : A → ℕ → ℝ)
    (k : ℕ) (hk : 0 < k) :
    ∃ (y : A → ℕ → ℝ) (z : A × Fin k → ℕ → ℝ), (o.callFbp kernel name N x).2 = some [y] ∧
      (o.callFbp kernel name N (fun ai : A × Fin k => x ai.1)).2 = some [z] ∧
      (∀ a i j, z (a, i) j = y a j / k) ∧ ∀ a j, ∑ i, z (a, i) j = y a j := by
  have hk0 : (k : ℝ) ≠ 0 := by positivity
  have key : ∀ (a : A) (i : Fin k) (j : ℕ), Spec.fbpFiltered kernel name o.rfft o.mode N (fun ai : A × Fin k => x ai.1) (a, i) j
      = Spec.fbpFiltered kernel name o.rfft o.mode N x a j / k := by
    intro a i j
    have hlin := (C112_filter_linear_selfadjoint o.rfft o.mode N (fun l => kernel (paddingSize N) name l * Real.pi / (2 * Fintype.card A))
      (fun _ => 0) (x a) (x a) (1 / k) 0).2.1 j
    have hF : (fun l => kernel (paddingSize N) name l * Real.pi / (2 * (Fintype.card (A × Fin k) : ℝ)))
        = fun l => (1 / k : ℝ) * (kernel (paddingSize N) name l * Real.pi / (2 * Fintype.card A)) + 0 * (0 : ℝ) := by
      funext l
      rw [Fintype.card_prod, Fintype.card_fin]
      push_cast
      rw [zero_mul, add_zero, div_mul_div_comm, one_mul]
      congr 1
      ring
    unfold Spec.fbpFiltered
    rw [hF, hlin]
    ring
  refine ⟨_, _, callFbp_eq _ _ _ _ _, callFbp_eq _ _ _ _ _, key, fun a j => ?_⟩
  simp only [key, Finset.sum_const, Finset.card_univ, Fintype.card_fin, nsmul_eq_mul]
  field_simp

/-- **C211.** The names: exactly those of the list are accepted, in lower, upper or mixed case, and only those. -/
theorem C211_filter_names (lower : String → String) (name : String) :
    (fbpFilterName lower name = none ↔ lower name ∉ ["ramp", "shepp-logan", "cosine", "hamming", "hann"]) ∧
    ∀ other, lower other = lower name → fbpFilterName lower other = fbpFilterName lower name := by
  refine ⟨?_, fun other h => by unfold fbpFilterName; rw [h]⟩
  unfold fbpFilterName
  split <;> rename_i h <;> simp_all [fbpFilterNames]

example (kernel : ℕ → String → ℕ → ℝ) (x : Fin 180 → ℕ → ℝ) :
    ∃ (y : Fin 180 → ℕ → ℝ) (z : Fin 180 × Fin 3 → ℕ → ℝ),
      ((FilterObj.new none .constant true).callFbp kernel "ramp" 100 x).2 = some [y] ∧
      ((FilterObj.new none .constant true).callFbp kernel "ramp" 100 (fun ai : Fin 180 × Fin 3 => x ai.1)).2 = some [z] ∧
      ∀ a j, ∑ i, z (a, i) j = y a j := by
  obtain ⟨y, z, h1, h2, -, h4⟩ := C211_repeated_angles kernel "ramp" (FilterObj.new none .constant true) 100 x 3 (by norm_num)
  exact ⟨y, z, h1, h2, h4⟩

/-! ## C212 -/

/-- The transform of a circular convolution. -/
theorem dft1_conv (P : ℕ) [NeZero P] (x k : ZMod P → ℝ) (l : ZMod P) :
    dft1 P (fun j => ∑ i, x i * k (j - i)) l = dft1 P x l * dft1 P k l := by
  unfold dft1
  simp only [ofReal_sum, ofReal_mul, Finset.sum_mul, Finset.mul_sum]
  rw [Finset.sum_comm]
  refine (Finset.sum_congr rfl fun i _ => ?_).trans Finset.sum_comm
  rw [← Equiv.sum_comp (Equiv.addRight i)]
  refine Finset.sum_congr rfl fun j _ => ?_
  simp only [Equiv.coe_addRight, add_sub_cancel_right]
  have : (stdAddChar (-(l * (j + i))) : ℂ) = stdAddChar (-(l * i)) * stdAddChar (-(l * j)) := by
    rw [← AddChar.map_add_eq_mul]; congr 1; ring
  rw [this]
  ring

/-- The inverse transform gives the row back. -/
theorem toReal_dft1 (rfft : Bool) (P : ℕ) [NeZero P] (hP : Even P) (z : ZMod P → ℝ) (j : ℕ) :
    toReal rfft P (fun l => dft1 P z (l : ZMod P)) j = z (j : ZMod P) := by
  rw [toReal_eq rfft P hP (dft1 P z) (dft1_neg P z)]
  have hP0 : (P : ℂ) ≠ 0 := by exact_mod_cast NeZero.ne P
  have : (∑ l : ZMod P, dft1 P z l * stdAddChar (l * (j : ZMod P))) = (z (j : ZMod P) : ℂ) * P := by
    unfold dft1
    simp only [Finset.sum_mul]
    rw [Finset.sum_comm]
    have e : ∀ i : ZMod P, ∑ l : ZMod P, (z i : ℂ) * stdAddChar (-(l * i)) * stdAddChar (l * (j : ZMod P)) =
        if i = (j : ZMod P) then (z i : ℂ) * P else 0 := by
      intro i
      have e1 : ∀ l : ZMod P, (z i : ℂ) * stdAddChar (-(l * i)) * stdAddChar (l * (j : ZMod P)) = z i * stdAddChar (l * ((j : ZMod P) - i)) := by
        intro l
        rw [mul_assoc, ← AddChar.map_add_eq_mul]
        congr 2
        ring
      simp only [e1]
      rw [← Finset.mul_sum, char_sum]
      by_cases h : i = (j : ZMod P)
      · rw [if_pos h, if_pos (sub_eq_zero.2 h.symm)]
      · rw [if_neg h, if_neg (fun h0 => h (sub_eq_zero.1 h0).symm), mul_zero]
    simp only [e]
    rw [Finset.sum_ite_eq', if_pos (Finset.mem_univ _)]
  rw [this, mul_div_cancel_right₀ _ hP0, ofReal_re]

/-- The circular convolution of the padded row with a kernel. -/
noncomputable def Spec.rowConv (mode : RowPad) (N : ℕ) (k : ZMod (paddingSize N) → ℝ) (data : ℕ → ℝ) (j : ℕ) : ℝ :=
  ∑ i : ZMod (paddingSize N), padRoll mode (paddingSize N) N data i.val * k ((j : ZMod (paddingSize N)) - i)

theorem rowEntry_map (rfft : Bool) (N : ℕ) (F : ℕ → ℂ) (l : ℕ) (hl : l < numFreqs rfft (paddingSize N)) :
    rowEntry ((List.range (numFreqs rfft (paddingSize N))).map F) l = F l := by
  have h1 := numFreqs_pos rfft N
  unfold rowEntry
  rw [List.length_map, List.length_range, if_neg (by omega)]
  simp [List.getD, hl]

theorem applyFilterC_kernel (rfft : Bool) (mode : RowPad) (N : ℕ) (k : ZMod (paddingSize N) → ℝ) (data : ℕ → ℝ) (j : ℕ) :
    applyFilterC (paddingSize N) rfft mode N (rowEntry (spectrumRow rfft (paddingSize N) k)) data j = Spec.rowConv mode N k data j := by
  rw [applyFilterC_congr _ rfft mode N (rowEntry (spectrumRow rfft (paddingSize N) k)) (fun l => dft1 (paddingSize N) k (l : ZMod (paddingSize N)))
    (fun l hl => rowEntry_map rfft N (filterRealSet (paddingSize N) k) l hl)]
  unfold applyFilterC
  simp only [← dft1_conv]
  rw [toReal_dft1 rfft _ (paddingSize_even N)]
  rfl

/-- The even part of a kernel. -/
noncomputable def Spec.evenPart {P : ℕ} (k : ZMod P → ℝ) (s : ZMod P) : ℝ := (k s + k (-s)) / 2

theorem dft1_evenPart (P : ℕ) [NeZero P] (k : ZMod P → ℝ) (l : ZMod P) : dft1 P (Spec.evenPart k) l = (((dft1 P k l).re : ℝ) : ℂ) := by
  have h1 : dft1 P (fun s => k (-s)) l = starRingEnd ℂ (dft1 P k l) := by
    rw [← dft1_neg]
    unfold dft1
    rw [← Equiv.sum_comp (Equiv.neg _)]
    refine Finset.sum_congr rfl fun i _ => ?_
    simp only [Equiv.neg_apply, neg_neg]
    congr 2
    ring
  have h2 : dft1 P (Spec.evenPart k) l = (dft1 P k l + dft1 P (fun s => k (-s)) l) / 2 := by
    unfold dft1 Spec.evenPart
    rw [← Finset.sum_add_distrib, Finset.sum_div]
    refine Finset.sum_congr rfl fun i _ => ?_
    push_cast
    ring
  rw [h2, h1, add_conj]
  push_cast
  ring

theorem spectrumRow_re (rfft : Bool) (P : ℕ) [NeZero P] (k : ZMod P → ℝ) :
    ((spectrumRow rfft P k).map fun z => ((z.re : ℝ) : ℂ)) = spectrumRow rfft P (Spec.evenPart k) := by
  unfold spectrumRow
  rw [List.map_map]
  refine List.map_congr_left fun l _ => ?_
  simp only [Function.comp, filterRealSet, dft1_evenPart]

theorem apply_kernels {A : Type} (o : FilterObj) (N : ℕ) (ks : List (ZMod (paddingSize N) → ℝ)) (h : o.rows = ks.map (spectrumRow o.rfft (paddingSize N)))
    (data : A → ℕ → ℝ) : o.apply N data = some (ks.map fun k a j => Spec.rowConv o.mode N k (data a) j) := by
  unfold FilterObj.apply
  rw [if_pos, h, List.map_map]
  · congr 1
    refine List.map_congr_left fun k _ => ?_
    funext a j
    exact applyFilterC_kernel o.rfft o.mode N k (data a) j
  · rw [h]
    intro row hrow
    obtain ⟨k, -, rfl⟩ := List.mem_map.1 hrow
    right
    simp [spectrumRow]

/-- **C212.** Kernels assigned to `filter_real` are those with which the rows are convolved, one result for each kernel, in their order; and
assigning what is read from `filter_fourier` to another object gives the same results. -/
theorem C212_kernels {A : Type} (o : FilterObj) (N : ℕ) (ks : List (ZMod (paddingSize N) → ℝ)) (data : A → ℕ → ℝ) :
    ((o.setReal (paddingSize N) ks).callCustom N data).2 = some (ks.map fun k a j => Spec.rowConv o.mode N k (data a) j) ∧
    (o.setReal (paddingSize N) ks).numFilters = ks.length ∧
    ∀ o' : FilterObj, o'.mode = o.mode → o'.rfft = o.rfft →
      ((o'.setFourier (o.setReal (paddingSize N) ks).getFourier).callCustom N data).2 = ((o.setReal (paddingSize N) ks).callCustom N data).2 := by
  have h1 := apply_kernels (o.setReal (paddingSize N) ks) N ks rfl data
  refine ⟨h1, by simp [FilterObj.numFilters, FilterObj.setReal], fun o' hm hr => ?_⟩
  have h2 := apply_kernels (o'.setFourier (o.setReal (paddingSize N) ks).getFourier) N ks
    (by simp [FilterObj.setFourier, FilterObj.getFourier, FilterObj.setReal, hr]) data
  refine h2.trans (Eq.trans ?_ h1.symm)
  simp only [FilterObj.setFourier, FilterObj.setReal, hm]

/-- **C212.** Without a filter the constructor makes the one that leaves the rows as they are. -/
theorem C212_no_filter {A : Type} (mode : RowPad) (rfft : Bool) (N : ℕ) (data : A → ℕ → ℝ) :
    ∃ y, ((FilterObj.new none mode rfft).callCustom N data).2 = some [y] ∧ ∀ a, ∀ j < N, y a j = data a j := by
  refine ⟨fun a j => applyFilterC (paddingSize N) rfft mode N (rowEntry [1]) (data a) j, ?_, fun a j hj => ?_⟩
  · simp [FilterObj.callCustom, FilterObj.apply, FilterObj.new]
  · have hP := paddingSize_spec N
    have hlt : j < paddingSize N := by have := hP.1; have := hP.2.1; omega
    have e : ∀ l, rowEntry [1] l = 1 := fun l => by simp [rowEntry]
    unfold applyFilterC
    simp only [e, mul_one]
    rw [toReal_dft1 rfft _ (paddingSize_even N)]
    rw [ZMod.val_natCast, Nat.mod_eq_of_lt hlt]
    unfold padRoll
    have hN : N + (paddingSize N - N + 1) / 2 ≤ paddingSize N := by have := hP.1; have := hP.2.1; omega
    simp only
    rw [Nat.mod_eq_of_lt (by omega), if_neg (by omega), if_pos (by omega)]
    congr 1
    omega

/-- **C212 (partial).** The filters given to the constructor are applied with the even parts of their kernels: so exactly those of even
kernels, the real ones, are applied as they are. -/
theorem C212_constructor_partial {A : Type} (mode : RowPad) (rfft : Bool) (N : ℕ) (ks : List (ZMod (paddingSize N) → ℝ)) (data : A → ℕ → ℝ) :
    ((FilterObj.new (some (ks.map (spectrumRow rfft (paddingSize N)))) mode rfft).callCustom N data).2 =
      some (ks.map fun k a j => Spec.rowConv mode N (Spec.evenPart k) (data a) j) ∧
    ((∀ k ∈ ks, ∀ s, k (-s) = k s) →
      ((FilterObj.new (some (ks.map (spectrumRow rfft (paddingSize N)))) mode rfft).callCustom N data).2 =
        some (ks.map fun k a j => Spec.rowConv mode N k (data a) j)) := by
  have h1 : ((FilterObj.new (some (ks.map (spectrumRow rfft (paddingSize N)))) mode rfft).callCustom N data).2 =
      some (ks.map fun k a j => Spec.rowConv mode N (Spec.evenPart k) (data a) j) := by
    have := apply_kernels (FilterObj.new (some (ks.map (spectrumRow rfft (paddingSize N)))) mode rfft) N (ks.map Spec.evenPart)
      (by simp only [FilterObj.new, List.map_map]; exact List.map_congr_left fun k _ => spectrumRow_re rfft _ k) data
    refine this.trans ?_
    rw [List.map_map]
    rfl
  refine ⟨h1, fun hk => h1.trans ?_⟩
  congr 1
  refine List.map_congr_left fun k hkk => ?_
  have : Spec.evenPart k = k := by
    funext s
    unfold Spec.evenPart
    rw [hk k hkk s]
    ring
  rw [this]

/-- **C212 (violated).** A filter given to the constructor is the one that is applied. -/
theorem C212_constructor_violated :
    ¬ ∀ (mode : RowPad) (rfft : Bool) (N : ℕ) (k : ZMod (paddingSize N) → ℝ) (data : Unit → ℕ → ℝ),
      ((FilterObj.new (some [spectrumRow rfft (paddingSize N) k]) mode rfft).callCustom N data).2 =
        some [fun a j => Spec.rowConv mode N k (data a) j] := by
  intro h
  set k : ZMod (paddingSize 1) → ℝ := fun s => if s = 1 then 1 else 0 with hk
  have h1 := h .constant true 1 k (fun _ _ => 1)
  have h2 := (C212_constructor_partial .constant true 1 [k] (fun (_ : Unit) _ => 1)).1
  rw [List.map_cons, List.map_nil, h1] at h2
  have h3 := congrFun (congrFun (List.cons.inj (Option.some.inj h2)).1 ()) 1
  have h64 := (paddingSize_spec 1).2.1
  have hP : 2 * 1 ≤ paddingSize 1 := by omega
  haveI : Fact (2 < paddingSize 1) := ⟨by omega⟩
  have h4 : (-1 : ZMod (paddingSize 1)) ≠ 1 := ZMod.neg_one_ne_one
  simp only [Spec.rowConv, sum_padRoll _ _ hP (fun _ => (1 : ℝ)) (fun i => k (((1 : ℕ) : ZMod (paddingSize 1)) - i)),
    sum_padRoll _ _ hP (fun _ => (1 : ℝ)) (fun i => Spec.evenPart k (((1 : ℕ) : ZMod (paddingSize 1)) - i))] at h3
  simp only [Finset.sum_range_one, Nat.cast_zero, sub_zero, Nat.cast_one, one_mul, Spec.evenPart, hk, if_pos, if_neg h4] at h3
  norm_num at h3

/-- **C212.** Which data a custom filter can be used with: a call succeeds if and only if every filter has a single entry or one for each
frequency of the padded rows; it does not change the object; and the `i`-th result is what the `i`-th filter gives alone. -/
theorem C212_calls {A : Type} (o : FilterObj) (N : ℕ) (data : A → ℕ → ℝ) :
    (o.callCustom N data).1 = o ∧
    ((o.callCustom N data).2.isSome ↔ ∀ row ∈ o.rows, row.length = 1 ∨ row.length = numFreqs o.rfft (paddingSize N)) ∧
    (∀ r, (o.callCustom N data).2 = some r → r.length = o.numFilters ∧
      ∀ (i : ℕ) (row : List ℂ), o.rows[i]? = some row → ∃ y, r[i]? = some y ∧ ((o.setFourier [row]).callCustom N data).2 = some [y]) := by
  unfold FilterObj.callCustom FilterObj.apply
  refine ⟨rfl, ?_, fun r hr => ?_⟩
  · simp only
    split <;> rename_i h
    · simpa using h
    · simpa using h
  · simp only at hr ⊢
    split at hr <;> rename_i h
    · obtain rfl := Option.some.inj hr
      refine ⟨by simp [FilterObj.numFilters], fun i row hrow => ?_⟩
      refine ⟨_, by rw [List.getElem?_map, hrow]; rfl, ?_⟩
      have hmem : row ∈ o.rows := List.mem_of_getElem? hrow
      rw [if_pos]
      · rfl
      · intro r hr'
        simp only [FilterObj.setFourier, List.mem_singleton] at hr'
        subst hr'
        exact h r hmem
    · cases hr

end Verif
