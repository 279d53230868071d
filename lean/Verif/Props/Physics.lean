import Mathlib.Analysis.Real.Pi.Bounds
import Mathlib.Data.List.GetD
import Verif.Model.Physics

/-!
# Units, fluorescence, materials, detectors: C53, C54, C118–C126
-/

namespace Verif

open Real

/-! ## C53 -/

theorem metricOrder_pos {u : String} {x : ℝ} (h : metricOrder u = some x) : 0 < x := by
  unfold metricOrder at h
  split at h <;> simp at h <;> subst h <;> norm_num

theorem energyOrder_pos {u : String} {x : ℝ} (h : energyOrder u = some x) : 0 < x := by
  unfold energyOrder at h
  split at h <;> simp at h <;> subst h <;> norm_num

theorem convert_spec (order : String → Option ℝ) (hpos : ∀ u x, order u = some x → 0 < x) (a b c : String) :
    (convertUnit order a b = none ↔ order a = none ∨ order b = none) ∧
    (∀ x, convertUnit order a b = some x → 0 < x ∧ convertUnit order b a = some x⁻¹) ∧
    (∀ x y, convertUnit order a b = some x → convertUnit order b c = some y → convertUnit order a c = some (x * y)) := by
  unfold convertUnit
  cases ha : order a <;> cases hb : order b <;> cases hc : order c <;> simp
  all_goals
    have := hpos _ _ ‹_›
    try have := hpos _ _ ha
    try have := hpos _ _ hb
    try have := hpos _ _ hc
    first
    | done
    | (try field_simp) <;> (try simp) <;> (try assumption) <;> (try positivity)

/-- **C53 (conversions).** Conversion factors are positive, the factor back is the inverse, and factors compose, for both kinds of units;
exactly the unknown units are rejected. -/
theorem C53_conversions (order : String → Option ℝ) (h : order = metricOrder ∨ order = energyOrder) (a b c : String) :
    (convertUnit order a b = none ↔ order a = none ∨ order b = none) ∧
    (∀ x, convertUnit order a b = some x → 0 < x ∧ convertUnit order b a = some x⁻¹) ∧
    (∀ x y, convertUnit order a b = some x → convertUnit order b c = some y → convertUnit order a c = some (x * y)) :=
  convert_spec order (by rcases h with rfl | rfl <;> intro u x <;> [exact metricOrder_pos; exact energyOrder_pos]) a b c

/-- A length of 5 mm is 0.5 cm. -/
example : convertUnit metricOrder "mm" "cm" = some (1 / 10) := by
  simp [convertUnit, metricOrder]; norm_num

/-- **C53 (wavelengths).** For a positive energy the wavelength is positive, and converting it back gives the energy, for all known units;
the larger the energy, the smaller the wavelength; and a change of the units changes the number by the conversion factor. -/
theorem C53_wavelength (c : ℝ) (hc : 0 < c) (energy : ℝ) (he : 0 < energy) (wl en : String) :
    (energyToWlength c energy wl en = none ↔ metricOrder wl = none ∨ energyOrder en = none) ∧
    ∀ w, energyToWlength c energy wl en = some w → 0 < w ∧ wlengthToEnergy c w wl en = some energy ∧
      (∀ energy' w', energy < energy' → energyToWlength c energy' wl en = some w' → w' < w) ∧
      (∀ wl' x, convertUnit metricOrder wl wl' = some x → energyToWlength c energy wl' en = some (w * x)) ∧
      (∀ en' x, convertUnit energyOrder en en' = some x → energyToWlength c (energy * x) wl en' = some w) := by
  unfold energyToWlength wlengthToEnergy convertUnit
  have hm1 : metricOrder "m" = some 1 := rfl
  have he1 : energyOrder "eV" = some 1 := rfl
  simp only [hm1, he1]
  cases hw : metricOrder wl with
  | none => simp
  | some m =>
    cases hn : energyOrder en with
    | none => simp
    | some n =>
      have hm := metricOrder_pos hw
      have hn' := energyOrder_pos hn
      simp only [Option.bind_eq_bind, Option.bind_some, div_one, reduceCtorEq, or_self, Option.some.injEq, true_and, forall_eq']
      have hpos : 0 < m * n / (c * energy) := by positivity
      refine ⟨hpos, by field_simp, ?_, ?_, ?_⟩
      · rintro energy' w' hlt rfl
        exact div_lt_div_of_pos_left (by positivity) (by positivity) (by gcongr)
      · intro wl' x hx
        cases hw' : metricOrder wl' with
        | none => simp [hw'] at hx
        | some m' =>
          simp [hw'] at hx ⊢
          rw [← hx]; field_simp
      · intro en' x hx
        cases hn2 : energyOrder en' with
        | none => simp [hn2] at hx
        | some n' =>
          have := energyOrder_pos hn2
          simp [hn2] at hx ⊢
          rw [← hx]; field_simp

example : ∃ w, energyToWlength 806554 10 "a" "keV" = some w := by
  simp [energyToWlength, convertUnit, metricOrder, energyOrder]

/-! ## C54 -/

/-- Weighted means are between the bounds of the values with positive weight. -/
theorem weighted_mean (l : List (ℝ × ℝ)) (hr : ∀ q ∈ l, 0 ≤ q.2) (lo hi : ℝ) (hb : ∀ q ∈ l, 0 < q.2 → lo ≤ q.1 ∧ q.1 ≤ hi) :
    lo * (l.map fun q => q.2).sum ≤ (l.map fun q => q.1 * q.2).sum ∧ (l.map fun q => q.1 * q.2).sum ≤ hi * (l.map fun q => q.2).sum := by
  induction l with
  | nil => simp
  | cons q l ih =>
    obtain ⟨h1, h2⟩ := ih (fun x hx => hr x (List.mem_cons_of_mem _ hx)) fun x hx => hb x (List.mem_cons_of_mem _ hx)
    simp only [List.map_cons, List.sum_cons]
    have hq := hr q (by simp)
    have : lo * q.2 ≤ q.1 * q.2 ∧ q.1 * q.2 ≤ hi * q.2 := by
      rcases hq.eq_or_lt with h | h
      · simp [← h]
      · obtain ⟨a, b⟩ := hb q (by simp) h
        exact ⟨by gcongr, by gcongr⟩
    constructor <;> nlinarith

/-- **C54.** With non-negative radiation rates, the average energy of a list of lines is between any bounds of the energies of the lines
that are emitted (with a positive rate): lines that the element does not have, or does not emit, have no influence. It is a number exactly
if some line has a positive rate; an empty list is an error. -/
theorem C54_average_energy (lines : List (Option ℝ × Option ℝ)) (hr : ∀ l ∈ lines, ∀ r, l.2 = some r → 0 ≤ r) :
    (averageEnergy lines = .valueError ↔ lines = []) ∧
    ((∃ e, averageEnergy lines = .value e) ↔ ∃ l ∈ lines, ∃ r, l.2 = some r ∧ 0 < r) ∧
    (∀ e, averageEnergy lines = .value e → ∀ lo hi : ℝ,
      (∀ l ∈ lines, ∀ r, l.2 = some r → 0 < r → lo ≤ l.1.getD 0 ∧ l.1.getD 0 ≤ hi) → lo ≤ e ∧ e ≤ hi) := by
  have hnn : ∀ l ∈ lines, 0 ≤ l.2.getD 0 := by
    intro l hl
    cases h : l.2 with
    | none => simp
    | some r => exact hr l hl r h
  have hsum : 0 ≤ (lines.map fun l => l.2.getD 0).sum := by
    refine List.sum_nonneg fun x hx => ?_
    obtain ⟨l, hl, rfl⟩ := List.mem_map.1 hx
    exact hnn l hl
  have hpos : (lines.map fun l => l.2.getD 0).sum ≠ 0 ↔ ∃ l ∈ lines, ∃ r, l.2 = some r ∧ 0 < r := by
    constructor
    · intro h
      by_contra hc
      push Not at hc
      apply h
      refine List.sum_eq_zero fun x hx => ?_
      obtain ⟨l, hl, rfl⟩ := List.mem_map.1 hx
      cases h2 : l.2 with
      | none => rfl
      | some r => exact le_antisymm (hc l hl r h2) (hr l hl r h2)
    · rintro ⟨l, hl, r, h2, h3⟩
      have := List.single_le_sum (l := lines.map fun l => l.2.getD 0) (by
        intro x hx
        obtain ⟨l, hl, rfl⟩ := List.mem_map.1 hx
        exact hnn l hl) (l.2.getD 0) (List.mem_map.2 ⟨l, hl, rfl⟩)
      rw [h2] at this
      simp only [Option.getD_some] at this
      exact (h3.trans_le this).ne'
  refine ⟨?_, ?_, ?_⟩
  · unfold averageEnergy
    by_cases h : lines = []
    · simp [h]
    · simp only [if_neg h]
      split_ifs <;> simp [h]
  · rw [← hpos]
    unfold averageEnergy
    by_cases h : lines = []
    · simp [h]
    · simp only [if_neg h]
      split_ifs with h0
      · simp [h0]
      · simp [h0]
  · intro e he lo hi hb
    unfold averageEnergy at he
    by_cases h : lines = []
    · simp [h] at he
    · simp only [if_neg h] at he
      split_ifs at he with h0
      have hlt : 0 < (lines.map fun l => l.2.getD 0).sum := lt_of_le_of_ne hsum (Ne.symm h0)
      set R := (lines.map fun l => l.2.getD 0).sum with hR
      have he' : (lines.map fun l => l.1.getD 0 * l.2.getD 0).sum / R = e := by
        have : (lines.map fun l => l.1.getD 0 * l.2.getD 0 / R) = (lines.map fun l => (l.1.getD 0 * l.2.getD 0) * R⁻¹) := by
          simp [div_eq_mul_inv]
        injection he with he
        rw [← he, this, List.sum_map_mul_right, div_eq_mul_inv]
      have key := weighted_mean (lines.map fun l => (l.1.getD 0, l.2.getD 0)) (by
        intro q hq
        obtain ⟨l, hl, rfl⟩ := List.mem_map.1 hq
        exact hnn l hl) lo hi (by
        intro q hq hq2
        obtain ⟨l, hl, rfl⟩ := List.mem_map.1 hq
        simp only at hq2 ⊢
        cases h2 : l.2 with
        | none => simp [h2] at hq2
        | some r => exact hb l hl r h2 (by simpa [h2] using hq2))
      simp only [List.map_map, Function.comp_def] at key
      rw [← he']
      exact ⟨(le_div_iff₀ hlt).2 key.1, (div_le_iff₀ hlt).2 key.2⟩

/-- Iron K-alpha: two lines, and one that it does not have. -/
example : ∃ e, averageEnergy [(some 6.404, some 0.58), (some 6.391, some 0.29), (none, none)] = .value e ∧ 6.391 ≤ e ∧ e ≤ 6.404 := by
  have h := C54_average_energy [(some 6.404, some 0.58), (some 6.391, some 0.29), (none, none)] (by
    intro l hl r hr; simp at hl; rcases hl with rfl | rfl | rfl <;> simp at hr <;> subst hr <;> norm_num)
  obtain ⟨e, he⟩ := h.2.1.2 ⟨(some 6.404, some 0.58), by simp, 0.58, rfl, by norm_num⟩
  exact ⟨e, he, h.2.2 e he _ _ (by
    intro l hl r hr _; simp at hl; rcases hl with rfl | rfl | rfl <;> simp at hr <;> norm_num)⟩

/-- **C54 (families).** The lines of a family are exactly those whose name starts with it, in any case of the letters; the families of
longer names are part of those of their beginnings. -/
theorem C54_families (names : List (List Char)) (line : List Char) :
    (∀ n, n ∈ getLines names line ↔ n ∈ names ∧ ∃ rest, n = line.map Char.toUpper ++ rest) ∧
    (∀ more n, n ∈ getLines names (line ++ more) → n ∈ getLines names line) := by
  have key : ∀ line n, n ∈ getLines names line ↔ n ∈ names ∧ ∃ rest, n = line.map Char.toUpper ++ rest := by
    intro line n
    unfold getLines
    rw [List.mem_filter, beq_iff_eq]
    refine and_congr_right fun _ => ⟨fun h => ⟨n.drop line.length, ?_⟩, ?_⟩
    · rw [← h, List.take_append_drop]
    · rintro ⟨rest, rfl⟩
      rw [List.take_left' (by simp)]
  refine ⟨key line, fun more n h => ?_⟩
  rw [key] at h ⊢
  obtain ⟨h1, rest, h2⟩ := h
  exact ⟨h1, more.map Char.toUpper ++ rest, by rw [h2]; simp⟩

example : getLines ["KA1".toList, "KB1".toList, "LA1".toList] "ka".toList = ["KA1".toList] := by decide

/-! ## C255 -/

/-- **C255 (violated).** The name of a line selects that line only: asking for the line `LB1` gives `LB10`, `LB15` and `LB17` too. -/
theorem C255_line_by_name_violated :
    ¬ ∀ n ∈ siegbahnLines, getLines siegbahnLines n = [n] := by
  intro h
  exact absurd (h "LB1".toList (by decide)) (by decide)

/-- The lines that `LB1` gives. -/
theorem C255_LB1_violated : getLines siegbahnLines "LB1".toList = ["LB1".toList, "LB10".toList, "LB15".toList, "LB17".toList] := by decide

/-- **C255 (partial).** For any table of distinct names, the name of a line selects that line only if and only if no other name of the table continues it (in the
table of the code, all but `LB1`). -/
theorem C255_line_by_name_partial {names : List (List Char)} (hd : names.Nodup) (hu : ∀ n ∈ names, n.map Char.toUpper = n) {n : List Char} (hn : n ∈ names) :
    getLines names n = [n] ↔ ∀ rest, n ++ rest ∈ names → rest = [] := by
  have key : ∀ x, x ∈ getLines names n ↔ x ∈ names ∧ ∃ rest, x = n ++ rest := by
    intro x; rw [(C54_families names n).1 x, hu n hn]
  constructor
  · intro h rest hr
    have := (key (n ++ rest)).2 ⟨hr, rest, rfl⟩
    rw [h, List.mem_singleton] at this
    simpa using this
  · intro h
    have hnd : (getLines names n).Nodup := hd.filter _
    have hall : ∀ x ∈ getLines names n, x = n := by
      intro x hx
      obtain ⟨hx, rest, rfl⟩ := (key x).1 hx
      rw [h rest hx, List.append_nil]
    have hmem : n ∈ getLines names n := (key n).2 ⟨hn, [], by simp⟩
    match hl : getLines names n with
    | [] => rw [hl] at hmem; cases hmem
    | [x] => rw [hl] at hall; rw [hall x (by simp)]
    | x :: y :: l =>
      rw [hl] at hall hnd
      have := hall x (by simp)
      have := hall y (by simp)
      subst_vars
      simp at hnd

/-- Non-vacuity: the table of the code. -/
example : siegbahnLines.Nodup ∧ (∀ n ∈ siegbahnLines, n.map Char.toUpper = n) ∧ ∀ n ∈ siegbahnLines, n ≠ "LB1".toList → getLines siegbahnLines n = [n] := by
  decide

/-! ## C118 -/

/-- **C118 (attenuation).** The attenuation of a volume of materials does not depend on the order of the materials, adds over parts of the
list (so that a mixture attenuates as much as its components), is linear in the fractions of each material, proportional to the size of
the voxels, zero in empty voxels; and non-negative, and not smaller for larger fractions, if the tables, densities and fractions are not
negative. -/
theorem C118_attenuation {V : Type} (t : XrayTables) (voxel energy : ℝ) (ms : List (Material V)) (j : V) :
    (∀ ms', ms.Perm ms' → getAttenuation t ms voxel energy j = getAttenuation t ms' voxel energy j) ∧
    (∀ ms', getAttenuation t (ms ++ ms') voxel energy j = getAttenuation t ms voxel energy j + getAttenuation t ms' voxel energy j) ∧
    (∀ (a b : ℝ) (f g : V → ℝ) (c : Compound), getAttenuation t ((fun j => a * f j + b * g j, c) :: ms) voxel energy j =
      a * getAttenuation t [(f, c)] voxel energy j + b * getAttenuation t [(g, c)] voxel energy j + getAttenuation t ms voxel energy j) ∧
    (∀ s, getAttenuation t ms (s * voxel) energy j = s * getAttenuation t ms voxel energy j) ∧
    ((∀ m ∈ ms, m.1 j = 0) → getAttenuation t ms voxel energy j = 0) ∧
    (0 ≤ voxel → (∀ m ∈ ms, 0 ≤ m.2.density ∧ 0 ≤ crossSection t m.2 energy) →
      ((∀ m ∈ ms, 0 ≤ m.1 j) → 0 ≤ getAttenuation t ms voxel energy j) ∧
      ∀ more : Compound → V → ℝ, (∀ m ∈ ms, m.1 j ≤ more m.2 j) →
        getAttenuation t ms voxel energy j ≤ getAttenuation t (ms.map fun m => (more m.2, m.2)) voxel energy j) := by
  unfold getAttenuation
  refine ⟨fun ms' h => by rw [(h.map _).sum_eq], fun ms' => by rw [List.map_append, List.sum_append, add_mul], fun a b f g c => ?_,
    fun s => by ring, fun h => ?_, fun hv hm => ⟨fun hf => ?_, fun more hmore => ?_⟩⟩
  · simp only [List.map_cons, List.sum_cons, List.map_nil, List.sum_nil]; ring
  · rw [List.sum_eq_zero, zero_mul]
    intro x hx
    obtain ⟨m, hm, rfl⟩ := List.mem_map.1 hx
    rw [h m hm]; ring
  · refine mul_nonneg (List.sum_nonneg fun x hx => ?_) hv
    obtain ⟨m, hm', rfl⟩ := List.mem_map.1 hx
    exact mul_nonneg (mul_nonneg (hf m hm') (hm m hm').1) (hm m hm').2
  · refine mul_le_mul_of_nonneg_right ?_ hv
    rw [List.map_map]
    refine List.sum_le_sum fun m hm' => ?_
    obtain ⟨h1, h2⟩ := hm m hm'
    have := hmore m hm'
    simp only [Function.comp_def]
    gcongr

/-- Sum of a table over the elements of a compound, through the position of each element. -/
theorem sum_idxOf (els : List ℕ) (ws : List ℝ) (hn : els.Nodup) (hl : els.length = ws.length) :
    (els.map fun el => ws.getD (els.idxOf el) 0).sum = ws.sum := by
  have : (els.map fun el => ws.getD (els.idxOf el) 0) = ws := by
    refine List.ext_getElem (by simpa using hl) fun i h1 h2 => ?_
    simp only [List.length_map] at h1
    rw [List.getElem_map, hn.idxOf_getElem i h1, List.getD_eq_getElem _ _ h2]
  rw [this]

/-- **C118 (elements).** The local densities of the elements add up to the density of the voxel: if the entries of each compound are
distinct, their mass fractions sum to one, and the list of elements contains them all once, the sum of the mass fractions of the elements
is the sum of the fractions of the materials times their densities. -/
theorem C118_elements {V : Type} (ms : List (Material V)) (els : List ℕ) (hels : els.Nodup) (j : V)
    (h : ∀ m ∈ ms, m.2.elements.Nodup ∧ m.2.elements.length = m.2.massFractions.length ∧ m.2.massFractions.sum = 1 ∧
      ∀ el ∈ m.2.elements, el ∈ els) :
    (els.map fun el => elementMassFraction ms el j).sum = (ms.map fun m => m.1 j * m.2.density).sum := by
  induction ms with
  | nil => simp [elementMassFraction]
  | cons m ms ih =>
    have ih' := ih fun x hx => h x (List.mem_cons_of_mem _ hx)
    obtain ⟨h1, h2, h3, h4⟩ := h m (by simp)
    have : (els.map fun el => elementMassFraction (m :: ms) el j) = els.map fun el =>
        (if el ∈ m.2.elements then m.1 j * m.2.density * m.2.massFractions.getD (m.2.elements.idxOf el) 0 else 0) +
          elementMassFraction ms el j := by
      refine List.map_congr_left fun el _ => ?_
      unfold elementMassFraction
      rw [List.map_cons, List.sum_cons]
    rw [this, List.sum_map_add, ih', List.map_cons, List.sum_cons]
    congr 1
    rw [← List.sum_toFinset _ hels, ← Finset.sum_filter]
    have hf : els.toFinset.filter (fun el => el ∈ m.2.elements) = m.2.elements.toFinset := by
      ext el
      simp only [Finset.mem_filter, List.mem_toFinset]
      exact ⟨fun h => h.2, fun h => ⟨h4 el h, h⟩⟩
    rw [hf, List.sum_toFinset _ h1]
    have := sum_idxOf m.2.elements m.2.massFractions h1 h2
    rw [h3] at this
    rw [List.sum_map_mul_left, this, mul_one]

/-- Water and its oxygen and hydrogen. -/
example (f : Fin 8 → ℝ) (j : Fin 8) :
    ([8, 1, 26].map fun el => elementMassFraction [(f, ⟨"H2O", [1, 8], [0.112, 0.888], 1⟩)] el j).sum = f j := by
  rw [C118_elements _ [8, 1, 26] (by decide) j]
  · simp
  · intro m hm
    simp at hm
    subst hm
    refine ⟨by simp, rfl, by norm_num, ?_⟩
    intro el hel; simp at hel ⊢; omega

/-- **C118 (phase, fluorescence, density).** The phase shift is independent of the order of the materials, additive, and zero in empty
voxels; the fluorescence production of an element is its mass fraction times a number that is the same in all voxels, and with a detector
the part of it that is the solid angle of the detector; the approximated density of a compound is between the smallest and the largest
density of its elements. -/
theorem C118_others {V : Type} (t : XrayTables) (voxel energy wl : ℝ) (ms : List (Material V)) (j : V) :
    (∀ ms', ms.Perm ms' → getPhaseShift t ms voxel energy wl j = getPhaseShift t ms' voxel energy wl j) ∧
    (∀ ms', getPhaseShift t (ms ++ ms') voxel energy wl j =
      getPhaseShift t ms voxel energy wl j + getPhaseShift t ms' voxel energy wl j) ∧
    ((∀ m ∈ ms, m.1 j = 0) → getPhaseShift t ms voxel energy wl j = 0) ∧
    (∀ el yields det, ∃ r, ∀ j, fluoProduction ms el yields voxel det j = r * elementMassFraction ms el j) ∧
    (∀ el yields d, fluoProduction ms el yields voxel (some d) j = d.solidAngle * fluoProduction ms el yields voxel none j) ∧
    (∀ els ws lo hi, els.length = ws.length → (∀ w ∈ ws, 0 ≤ w) → ws.sum = 1 →
      (∀ el ∈ els, lo ≤ t.elementDensity el ∧ t.elementDensity el ≤ hi) → lo ≤ approxDensity t els ws ∧ approxDensity t els ws ≤ hi) := by
  refine ⟨?_, ?_, ?_, ?_, ?_, ?_⟩
  · intro ms' h
    unfold getPhaseShift
    rw [(h.map _).sum_eq]
  · intro ms'
    unfold getPhaseShift
    rw [List.map_append, List.sum_append]; ring
  · intro h
    unfold getPhaseShift
    rw [List.sum_eq_zero]
    · ring
    · intro x hx
      obtain ⟨m, hm, rfl⟩ := List.mem_map.1 hx
      rw [h m hm]; ring
  · intro el yields det
    refine ⟨(yields.map fun y => y.getD 0).sum * voxel * det.elim 1 DetectorXrf.solidAngle, fun j => ?_⟩
    unfold fluoProduction
    ring
  · intro el yields d
    unfold fluoProduction
    simp only [Option.elim]; ring
  · intro els ws lo hi hl hw hs hb
    have key : ∀ (els : List ℕ) (ws : List ℝ), els.length = ws.length → (∀ w ∈ ws, 0 ≤ w) →
        (∀ el ∈ els, lo ≤ t.elementDensity el ∧ t.elementDensity el ≤ hi) →
        lo * ws.sum ≤ approxDensity t els ws ∧ approxDensity t els ws ≤ hi * ws.sum := by
      intro els
      induction els with
      | nil =>
        intro ws hl _ _
        have : ws = [] := by simpa using hl.symm
        simp [this, approxDensity]
      | cons e els ih =>
        intro ws hl hw hb
        cases ws with
        | nil => simp at hl
        | cons w ws =>
          obtain ⟨h1, h2⟩ := ih ws (by simpa using hl) (fun x hx => hw x (List.mem_cons_of_mem _ hx)) fun x hx =>
            hb x (List.mem_cons_of_mem _ hx)
          obtain ⟨h3, h4⟩ := hb e (by simp)
          have h5 := hw w (by simp)
          have e1 : approxDensity t (e :: els) (w :: ws) = t.elementDensity e * w + approxDensity t els ws := by simp [approxDensity]
          rw [e1, List.sum_cons]
          have h6 := mul_le_mul_of_nonneg_right h3 h5
          have h7 := mul_le_mul_of_nonneg_right h4 h5
          constructor <;> linarith
    have := key els ws hl hw hb
    rwa [hs, mul_one, mul_one] at this

/-! ## C119 -/

/-- **C119 (violated).** Asking for the linear attenuation coefficient of a compound does not change later answers for the same compound:
a density that is given for one call stays in the dictionary. -/
theorem C119_compound_unchanged_violated :
    ¬ ∀ (t : XrayTables) (c : Compound) (energy pixel d : ℝ),
      (linearAttenuation t (linearAttenuation t c energy pixel (some d)).2 energy pixel none).1 = (linearAttenuation t c energy pixel none).1 := by
  intro h
  have := h ⟨fun _ _ => some 1, fun _ _ => 1, fun _ _ _ => 1, fun _ => 1⟩ ⟨"H2O", [], [], 1⟩ 10 1 2
  simp [linearAttenuation, crossSection] at this

/-- **C119 (partial).** It does not if no density is given; and with a density each answer is the one for a compound of that density,
proportional to it and to the size of the pixel. -/
theorem C119_compound_unchanged_partial (t : XrayTables) (c : Compound) (energy pixel : ℝ) :
    (linearAttenuation t c energy pixel none).2 = c ∧
    (∀ d, linearAttenuation t c energy pixel (some d) = linearAttenuation t { c with density := d } energy pixel none) ∧
    (∀ d, (linearAttenuation t c energy pixel (some d)).1 = d * (linearAttenuation t c energy pixel (some 1)).1) ∧
    (∀ s d, (linearAttenuation t c energy (s * pixel) d).1 = s * (linearAttenuation t c energy pixel d).1) := by
  refine ⟨rfl, fun d => rfl, fun d => ?_, fun s d => ?_⟩
  · simp only [linearAttenuation, crossSection]; ring
  · simp only [linearAttenuation]; ring

/-! ## C120 -/

/-- **C120.** For a detector with a positive distance and non-negative surface: its fraction of the sphere is not negative, follows the
inverse square law, and only depends on the ratio of surface and squared distance; its angular range is symmetric, below a right angle on
each side, as seen from the sample to the middle of the edges of a square detector, and grows with the surface and shrinks with the
distance. -/
theorem C120_detector (d : DetectorXrf) (hs : 0 ≤ d.surface) (hd : 0 < d.distance) :
    0 ≤ d.solidAngle ∧
    (∀ s, 0 < s → { d with distance := s * d.distance }.solidAngle = d.solidAngle / s ^ 2) ∧
    (∀ s, 0 < s → { d with surface := s ^ 2 * d.surface, distance := s * d.distance }.solidAngle = d.solidAngle ∧
      { d with surface := s ^ 2 * d.surface, distance := s * d.distance }.angleRange = d.angleRange) ∧
    d.angleRange.1 = -d.angleRange.2 ∧ 0 ≤ d.angleRange.2 ∧ d.angleRange.2 < π / 2 ∧
    tan d.angleRange.2 * d.distance = sqrt d.surface / 2 ∧
    (∀ S, d.surface < S → d.angleRange.2 < { d with surface := S }.angleRange.2) ∧
    (∀ D, d.distance < D → 0 < d.surface → { d with distance := D }.angleRange.2 < d.angleRange.2) := by
  unfold DetectorXrf.angleRange DetectorXrf.solidAngle DetectorXrf.halfAngle
  refine ⟨by positivity, fun s hs' => by field_simp, fun s hs' => ⟨by field_simp, ?_⟩, rfl, ?_, arctan_lt_pi_div_two _, ?_, ?_, ?_⟩
  · simp only
    have : sqrt (s ^ 2 * d.surface) / 2 / (s * d.distance) = sqrt d.surface / 2 / d.distance := by
      rw [sqrt_mul (by positivity), sqrt_sq hs'.le]; field_simp
    rw [this]
  · exact arctan_nonneg.2 (by positivity)
  · rw [tan_arctan]; field_simp
  · intro S hS
    apply arctan_strictMono
    have := sqrt_lt_sqrt hs hS
    simp only; gcongr
  · intro D hD hS
    apply arctan_strictMono
    have : 0 < sqrt d.surface := sqrt_pos.2 hS
    simp only
    gcongr

/-! ## C121 -/

/-- **C121 (violated).** `solid_angle_sr` is in steradians: a detector with the surface of the whole sphere has `4 π`. -/
theorem C121_steradians_violated :
    ¬ ∀ d : DetectorXrf, 0 < d.distance → d.surface = 4 * π * d.distance ^ 2 → d.solidAngle = 4 * π := by
  intro h
  have := h ⟨4 * π * 1 ^ 2, 1, 0⟩ one_pos rfl
  simp only [DetectorXrf.solidAngle] at this
  rw [div_self (by positivity)] at this
  have := pi_gt_three
  linarith

/-- **C121 (partial).** It is the fraction of the sphere: `4 π` times it is the surface over the squared distance, and the fractions of
detectors of the same distance add up as their surfaces, to 1 for the sphere. -/
theorem C121_steradians_partial (d : DetectorXrf) (hd : 0 < d.distance) :
    4 * π * d.solidAngle = d.surface / d.distance ^ 2 ∧
    (∀ s, { d with surface := d.surface + s }.solidAngle = d.solidAngle + { d with surface := s }.solidAngle) ∧
    { d with surface := 4 * π * d.distance ^ 2 }.solidAngle = 1 := by
  unfold DetectorXrf.solidAngle
  refine ⟨by field_simp, fun s => by simp only; ring, ?_⟩
  simp only
  exact div_self (by positivity)

/-! ## C122 -/

/-- What the check of the parallax should be: the fractions of the sphere seen from the nearest and the farthest voxel of a sample with
side `voxelCm * size`, in cm, differ by less than the tolerance; the distance of the detector is in mm. -/
def NoParallax (voxelCm size : ℝ) (d : DetectorXrf) (tolerance : ℝ) : Prop :=
  |d.surface / (4 * π * (d.distance - 10 * voxelCm * size / 2) ^ 2) - d.surface / (4 * π * (d.distance + 10 * voxelCm * size / 2) ^ 2)| < tolerance

/-- **C122 (violated).** The warning about parallax comes exactly if there is some: the size of the sample in cm is added to the distance
in mm. -/
theorem C122_parallax_violated :
    ¬ ∀ (voxelCm size : ℝ) (d : DetectorXrf) (tolerance : ℝ), 0 < voxelCm → 0 < size → 0 < tolerance → 0 < d.surface →
      10 * voxelCm * size / 2 < d.distance → (checkParallax voxelCm size d tolerance ↔ NoParallax voxelCm size d tolerance) := by
  intro h
  have h1 := h 1 2 ⟨4 * π, 20, 0⟩ (1 / 1000) (by norm_num) (by norm_num) (by norm_num) (by positivity) (by norm_num)
  unfold checkParallax NoParallax DetectorXrf.solidAngle at h1
  simp only at h1
  have e : ∀ x : ℝ, 4 * π / (4 * π * x) = 1 / x := fun x => by
    rcases eq_or_ne x 0 with rfl | hx
    · simp
    · field_simp
  simp only [e] at h1
  norm_num at h1

/-- **C122 (partial).** The check is the right one for a sample ten times smaller. -/
theorem C122_parallax_partial (voxelCm size : ℝ) (d : DetectorXrf) (tolerance : ℝ) :
    checkParallax voxelCm size d tolerance ↔ NoParallax (voxelCm / 10) size d tolerance := by
  unfold checkParallax NoParallax DetectorXrf.solidAngle
  simp only
  rw [max_sub_min_eq_abs, abs_sub_comm]
  have e1 : d.distance + -(voxelCm * size / 2) = d.distance - 10 * (voxelCm / 10) * size / 2 := by ring
  have e2 : d.distance + voxelCm * size / 2 = d.distance + 10 * (voxelCm / 10) * size / 2 := by ring
  rw [e1, e2]

/-! ## C123 -/

/-- **C123 (violated).** A detector can be made with an array of positive distances, as its annotation says. -/
theorem C123_distances_violated :
    ¬ ∀ (surface : ℝ) (ds : List ℝ), 0 ≤ surface → ds ≠ [] → (∀ x ∈ ds, 0 < x) → detectorInit surface ds = some () := by
  intro h
  have := h 1 [1, 2] (by norm_num) (by simp) (by simp)
  simp [detectorInit] at this

/-- **C123 (partial).** With one distance, exactly the detectors with a non-negative surface and a positive distance can be made. -/
theorem C123_distances_partial (surface d : ℝ) : detectorInit surface [d] = some () ↔ 0 ≤ surface ∧ 0 < d := by
  unfold detectorInit
  simp only
  split_ifs with h1 h2
  · simp [h1]
  · simp [h2]
  · push Not at h1 h2
    simp [h1, h2]

/-! ## C124, C125 -/

/-- **C124 (violated).** `get_maps(rot_ind=i)` returns the map of rotation `i`, where negative numbers count from the end. -/
theorem C124_rot_index_violated :
    ¬ ∀ (maps : List ℕ) (i : ℤ), -(maps.length : ℤ) ≤ i → i < maps.length → some (getMapsRot maps i) = (pyIndex maps i).map fun m => [m] := by
  intro h
  have := h [1, 2] (-1) (by simp) (by simp)
  revert this
  decide

theorem pySlice_single {α : Type} (l : List α) (i : ℤ) (h1 : -(l.length : ℤ) ≤ i) (h2 : i < l.length) (h3 : i ≠ -1) :
    some (pySlice l i (i + 1)) = (pyIndex l i).map fun m => [m] := by
  have key : ∀ k, k < l.length → some ((l.drop k).take 1) = (l[k]?).map fun m => [m] := by
    intro k hk
    rw [List.getElem?_eq_getElem hk, Option.map_some, List.drop_eq_getElem_cons hk]
    rfl
  unfold pySlice pyIndex
  simp only
  by_cases h0 : i < 0
  · have a1 : max (i + (l.length : ℤ)) 0 = i + l.length := max_eq_left (by omega)
    have a2 : max (i + 1 + (l.length : ℤ)) 0 = i + 1 + l.length := max_eq_left (by omega)
    rw [if_pos h0, if_pos (by omega : i + 1 < 0), if_pos h0, if_neg (by omega), a1, a2]
    rw [show (i + 1 + (l.length : ℤ)).toNat - (i + (l.length : ℤ)).toNat = 1 by omega]
    exact key _ (by omega)
  · have a1 : min i (l.length : ℤ) = i := min_eq_left (by omega)
    have a2 : min (i + 1) (l.length : ℤ) = i + 1 := min_eq_left (by omega)
    rw [if_neg h0, if_neg (by omega : ¬ i + 1 < 0), if_neg h0, if_neg h0, a1, a2]
    rw [show (i + 1).toNat - i.toNat = 1 by omega]
    exact key _ (by omega)

/-- **C124 (partial).** It does for all numbers but `-1`, for which there is no map at all. -/
theorem C124_rot_index_partial {α : Type} (maps : List α) :
    (∀ i : ℤ, -(maps.length : ℤ) ≤ i → i < maps.length → i ≠ -1 → some (getMapsRot maps i) = (pyIndex maps i).map fun m => [m]) ∧
    getMapsRot maps (-1) = [] := by
  refine ⟨fun i h1 h2 h3 => pySlice_single maps i h1 h2 h3, ?_⟩
  unfold getMapsRot pySlice
  simp

example : getMapsRot [10, 20, 30] (-2) = [20] ∧ getMapsRot [10, 20, 30] 2 = [30] := by decide

/-- **C125 (violated).** `get_projector_args` accepts any selection of detectors, and gives as many maps as angles. -/
theorem C125_projector_args_violated :
    ¬ ∀ (maps angles : List ℕ) (ind : DetInd), maps.length = angles.length →
      (∀ i, ind = .int i → -(angles.length : ℤ) ≤ i ∧ i < angles.length) →
        ∃ r, projectorArgs maps angles ind = some r ∧ r.1.length = r.2.length := by
  intro h
  obtain ⟨r, hr, -⟩ := h [1, 2] [3, 4] (.slice 0 1) rfl (by simp)
  simp [projectorArgs] at hr

/-- **C125 (partial).** For all detectors, and for a number other than `-1`, the maps and angles are those of the same detectors; with `-1`
there is the angle of the last detector and no map; slices are rejected. -/
theorem C125_projector_args_partial {α β : Type} (maps : List α) (angles : List β) (h : maps.length = angles.length) :
    projectorArgs maps angles .all = some (maps, angles) ∧
    (∀ i : ℤ, -(angles.length : ℤ) ≤ i → i < angles.length → i ≠ -1 → ∃ m a, pyIndex maps i = some m ∧ pyIndex angles i = some a ∧
      projectorArgs maps angles (.int i) = some ([m], [a])) ∧
    (angles ≠ [] → ∃ a, projectorArgs maps angles (.int (-1)) = some ([], [a])) ∧
    (∀ s e, projectorArgs maps angles (.slice s e) = none) := by
  have get : ∀ {γ : Type} (l : List γ) (i : ℤ), -(l.length : ℤ) ≤ i → i < l.length → ∃ m, pyIndex l i = some m := by
    intro γ l i h1 h2
    unfold pyIndex
    simp only
    split_ifs with h3 h4
    · omega
    · exact ⟨_, List.getElem?_eq_getElem (by omega)⟩
    · exact ⟨_, List.getElem?_eq_getElem (by omega)⟩
  refine ⟨rfl, fun i h1 h2 h3 => ?_, fun hne => ?_, fun s e => rfl⟩
  · obtain ⟨m, hm⟩ := get maps i (by omega) (by omega)
    obtain ⟨a, ha⟩ := get angles i h1 h2
    refine ⟨m, a, hm, ha, ?_⟩
    have := pySlice_single maps i (by omega) (by omega) h3
    rw [hm, Option.map_some] at this
    injection this with this
    simp [projectorArgs, ha, this]
  · have hlen : 0 < angles.length := List.length_pos_iff.2 hne
    obtain ⟨a, ha⟩ := get angles (-1) (by omega) (by omega)
    refine ⟨a, ?_⟩
    have := (C124_rot_index_partial maps).2
    unfold getMapsRot at this
    simp [projectorArgs, ha] at this ⊢
    exact this

/-! ## C126 -/

/-- **C126.** The emission angles of a detector with a surface are as many as asked for, equally spaced, symmetric around the centre of
the detector, all strictly inside its angular range; a detector without a surface has one, its centre. -/
theorem C126_sub_angles (d : DetectorXrf) (s : ℕ) (hs : 0 < s) (hd : 0 < d.distance) :
    (d.surface ≤ 0 → subAngles d s = [0]) ∧
    (0 < d.surface → (subAngles d s).length = s ∧
      (∀ i, i < s → (subAngles d s).getD i 0 = d.halfAngle * (2 * i + 1 - s) / s) ∧
      (∀ x ∈ subAngles d s, d.angleRange.1 < x ∧ x < d.angleRange.2) ∧
      (subAngles d s).reverse = (subAngles d s).map fun x => -x) := by
  refine ⟨fun h => by unfold subAngles; rw [if_neg (not_lt.2 h)], fun h => ?_⟩
  have hs' : (0 : ℝ) < s := by exact_mod_cast hs
  have hh : 0 < d.halfAngle := arctan_pos.2 (by have := sqrt_pos.2 h; positivity)
  have hval : subAngles d s = (List.range s).map fun i : ℕ => d.halfAngle * (2 * i + 1 - s) / s := by
    unfold subAngles DetectorXrf.angleRange
    rw [if_pos h]
    refine List.map_congr_left fun i _ => ?_
    simp only
    push_cast
    field_simp
    ring
  refine ⟨by rw [hval]; simp, fun i hi => ?_, fun x hx => ?_, ?_⟩
  · rw [hval, List.getD_eq_getElem _ _ (by simpa using hi)]
    simp
  · rw [hval] at hx
    obtain ⟨i, hi, rfl⟩ := List.mem_map.1 hx
    have hi' : (i : ℝ) + 1 ≤ s := by exact_mod_cast List.mem_range.1 hi
    have hi0 : (0 : ℝ) ≤ i := Nat.cast_nonneg i
    simp only [DetectorXrf.angleRange]
    rw [lt_div_iff₀ hs', div_lt_iff₀ hs']
    constructor <;> nlinarith
  · rw [hval]
    refine List.ext_getElem (by simp) fun i h1 h2 => ?_
    simp only [List.length_reverse, List.length_map, List.length_range] at h1
    rw [List.getElem_reverse, List.getElem_map, List.getElem_map, List.getElem_map, List.getElem_range, List.getElem_range]
    simp only [List.length_map, List.length_range]
    have : ((s - 1 - i : ℕ) : ℝ) = s - 1 - i := by
      rw [Nat.cast_sub (by omega), Nat.cast_sub (by omega)]; norm_num
    rw [this]
    ring

example : (subAngles ⟨4, 1, 0⟩ 3).length = 3 := ((C126_sub_angles ⟨4, 1, 0⟩ 3 (by norm_num) one_pos).2 (by norm_num)).1

end Verif
