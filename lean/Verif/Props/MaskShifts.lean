import Mathlib.Data.List.GetD
import Verif.Model.StructIllum

/-!
# Shifts of the masks: C57, C131, C132, C133
-/

namespace Verif

/-! ## C57 -/

theorem mem_arangeStep {n k a : ℕ} (hk : 1 ≤ k) : a ∈ arangeStep n k ↔ a < n ∧ k ∣ a := by
  unfold arangeStep
  simp only [List.mem_map, List.mem_range]
  constructor
  · rintro ⟨i, hi, rfl⟩
    refine ⟨?_, Dvd.intro_left i rfl⟩
    have h1 : i + 1 ≤ (n + k - 1) / k := hi
    rw [Nat.le_div_iff_mul_le (by omega)] at h1
    have : (i + 1) * k = i * k + k := by ring
    omega
  · rintro ⟨h1, i, rfl⟩
    refine ⟨i, ?_, by ring⟩
    have : i + 1 ≤ (n + k - 1) / k := by
      rw [Nat.le_div_iff_mul_le (by omega)]
      have e1 : (i + 1) * k = k * i + k := by ring
      omega
    exact this

theorem nodup_arangeStep {n k : ℕ} (hk : 1 ≤ k) : (arangeStep n k).Nodup := by
  unfold arangeStep
  refine List.Nodup.map ?_ List.nodup_range
  intro a b h
  exact Nat.eq_of_mul_eq_mul_right (by omega) h

theorem length_arangeStep (n k : ℕ) : (arangeStep n k).length = (n + k - 1) / k := by
  simp [arangeStep]

/-- **C57 (interval).** For a step `k ≥ 1` and `v × u` shifts, the list holds each pair of multiples of `k` in the range exactly once. -/
theorem C57_interval_shifts (v u k : ℕ) (hk : 1 ≤ k) :
    ∃ l, intervalShifts [v, u] k = some l ∧ l.Nodup ∧ (∀ a b, (a, b) ∈ l ↔ a < v ∧ b < u ∧ k ∣ a ∧ k ∣ b) ∧
      (l.length : ℤ) = ⌈(v : ℚ) / k⌉ * ⌈(u : ℚ) / k⌉ := by
  refine ⟨_, rfl, ?_, ?_, ?_⟩
  · rw [List.nodup_flatMap]
    refine ⟨fun a _ => (nodup_arangeStep hk).map fun b c h => (Prod.ext_iff.1 h).2, ?_⟩
    refine (nodup_arangeStep (n := v) hk).imp ?_
    intro a b hab
    simp only [Function.onFun, List.disjoint_left, List.mem_map, not_exists, not_and]
    rintro x ⟨c, _, rfl⟩ d _ h
    exact hab (Prod.ext_iff.1 h).1.symm
  · intro a b
    simp only [List.mem_flatMap, List.mem_map, Prod.mk.injEq, mem_arangeStep hk]
    constructor
    · rintro ⟨a', ⟨h1, h2⟩, b', ⟨h3, h4⟩, rfl, rfl⟩
      exact ⟨h1, h3, h2, h4⟩
    · rintro ⟨h1, h3, h2, h4⟩
      exact ⟨a, ⟨h1, h2⟩, b, ⟨h3, h4⟩, rfl, rfl⟩
  · have hceil : ∀ n : ℕ, ⌈(n : ℚ) / k⌉ = (((n + k - 1) / k : ℕ) : ℤ) := by
      intro n
      have hkq : (0 : ℚ) < k := by exact_mod_cast hk
      rw [Int.ceil_eq_iff]
      have hd := Nat.div_add_mod (n + k - 1) k
      have hm := Nat.mod_lt (n + k - 1) (show 0 < k by omega)
      set q := (n + k - 1) / k
      constructor
      · rw [lt_div_iff₀ hkq]
        have : k * q + 1 ≤ n + k := by omega
        have h2 : ((k * q + 1 : ℕ) : ℚ) ≤ ((n + k : ℕ) : ℚ) := by exact_mod_cast this
        push_cast at h2 ⊢
        linarith
      · rw [div_le_iff₀ hkq]
        have : n ≤ k * q := by omega
        have h2 : (n : ℚ) ≤ ((k * q : ℕ) : ℚ) := by exact_mod_cast this
        push_cast at h2 ⊢
        linarith
    rw [hceil, hceil, List.length_flatMap]
    simp [length_arangeStep]

example : intervalShifts [5, 4] 2 = some [(0, 0), (0, 2), (2, 0), (2, 2), (4, 0), (4, 2)] := by decide

/-- Shifts with the step one are in row-major order. -/
theorem intervalShifts_one (v u : ℕ) : intervalShifts [v, u] 1 = some ((List.range (v * u)).map fun i => (i / u, i % u)) := by
  have harr : ∀ n, arangeStep n 1 = List.range n := by intro n; simp [arangeStep]
  simp only [intervalShifts, List.reverse_cons, List.reverse_nil, List.nil_append, List.singleton_append, harr, Option.some.injEq]
  induction v with
  | zero => simp
  | succ v ih =>
    rw [List.range_succ, List.flatMap_append, ih, Nat.succ_mul, List.range_add, List.map_append]
    congr 1
    simp only [List.flatMap_cons, List.flatMap_nil, List.append_nil, List.map_map]
    refine List.map_congr_left fun b hb => ?_
    rw [List.mem_range] at hb
    simp only [Function.comp_apply, Prod.mk.injEq]
    rw [Nat.add_comm (v * u) b, Nat.add_mul_mod_self_right, Nat.mod_eq_of_lt hb, Nat.add_mul_div_right _ _ (by omega), Nat.div_eq_of_lt hb]
    exact ⟨by omega, rfl⟩

theorem rowMajor_inj {v u i j : ℕ} (hi : i < v * u) (_ : j < v * u) (h : ((i / u, i % u) : ℕ × ℕ) = (j / u, j % u)) : i = j := by
  obtain ⟨h1, h2⟩ := Prod.ext_iff.1 h
  simp only at h1 h2
  rw [← Nat.div_add_mod i u, ← Nat.div_add_mod j u, h1, h2]

theorem rowMajor_lt {v u i : ℕ} (hi : i < v * u) : i / u < v ∧ i % u < u := by
  have hu : 0 < u := by
    rcases Nat.eq_zero_or_pos u with h | h
    · subst h; simp at hi
    · exact h
  exact ⟨Nat.div_lt_of_lt_mul (by rwa [Nat.mul_comm]), Nat.mod_lt _ hu⟩

/-- **C57 (sequential).** The `i`-th shift is the `i`-th position in row-major order; there are as many as asked for, at most all of them;
they are different and inside the range. -/
theorem C57_sequential_shifts (v u : ℕ) (num : Option ℕ) :
    ∃ l, sequentialShifts [v, u] num = some l ∧ l.length = min (num.getD (v * u)) (v * u) ∧ l.Nodup ∧
      (∀ s ∈ l, s.1 < v ∧ s.2 < u) ∧ ∀ i (h : i < l.length), l[i] = (i / u, i % u) := by
  have main : ∀ n, ∃ l, some (((List.range (v * u)).map fun i => (i / u, i % u)).take n) = some l ∧ l.length = min n (v * u) ∧ l.Nodup ∧
      (∀ s ∈ l, s.1 < v ∧ s.2 < u) ∧ ∀ i (h : i < l.length), l[i] = (i / u, i % u) := by
    intro n
    refine ⟨_, rfl, by simp, ?_, ?_, ?_⟩
    · refine List.Nodup.sublist (List.take_sublist _ _) ?_
      refine List.Nodup.map_on ?_ List.nodup_range
      intro a ha b hb h
      exact rowMajor_inj (List.mem_range.1 ha) (List.mem_range.1 hb) h
    · intro s hs
      have := List.mem_of_mem_take hs
      rw [List.mem_map] at this
      obtain ⟨i, hi, rfl⟩ := this
      exact rowMajor_lt (List.mem_range.1 hi)
    · intro i h
      simp
  unfold sequentialShifts
  rw [intervalShifts_one]
  cases num with
  | none =>
    obtain ⟨l, h1, h2⟩ := main (v * u)
    rw [List.take_of_length_le (by simp)] at h1
    exact ⟨l, h1, by simpa using h2⟩
  | some n =>
    obtain ⟨l, h1, h2⟩ := main n
    exact ⟨l, h1, by simpa using h2⟩

/-- **C57 (random).** For every permutation drawn, there are as many shifts as asked for, at most all of them; they are different and inside
the range. -/
theorem C57_random_shifts (v u num : ℕ) (perm : List ℕ) (hp : perm.Perm (List.range (v * u))) :
    ∃ l, randomShifts [v, u] num perm = some l ∧ l.length = min num (v * u) ∧ l.Nodup ∧ ∀ s ∈ l, s.1 < v ∧ s.2 < u := by
  unfold randomShifts
  rw [intervalShifts_one]
  have hlt : ∀ i ∈ perm, i < v * u := fun i hi => List.mem_range.1 (hp.subset hi)
  have hget : ∀ i ∈ perm.take (min num [v, u].prod), ((List.range (v * u)).map fun i => (i / u, i % u)).getD i (0, 0) = (i / u, i % u) := by
    intro i hi
    have := hlt i (List.mem_of_mem_take hi)
    rw [List.getD_eq_getElem _ _ (by simpa using this)]
    simp
  refine ⟨_, rfl, ?_, ?_, ?_⟩
  · simp [hp.length_eq]
  · rw [List.map_congr_left hget]
    refine List.Nodup.map_on ?_ ?_
    · intro a ha b hb h
      exact rowMajor_inj (hlt a (List.mem_of_mem_take ha)) (hlt b (List.mem_of_mem_take hb)) h
    · exact List.Nodup.sublist (List.take_sublist _ _) ((hp.nodup_iff).2 List.nodup_range)
  · rw [List.map_congr_left hget]
    intro s hs
    rw [List.mem_map] at hs
    obtain ⟨i, hi, rfl⟩ := hs
    exact rowMajor_lt (hlt i (List.mem_of_mem_take hi))

example : randomShifts [2, 3] 4 [5, 0, 3, 1, 4, 2] = some [(1, 2), (0, 0), (1, 0), (0, 1)] := by decide

/-! ## C131 -/

/-- A drawn permutation, when there is one, is a permutation of all the positions. -/
def ShiftType.valid (t : ShiftType) (n : ℕ) : Prop := ∀ perm, t = .random perm → perm.Perm (List.range n)

/-- **C131, violated.** The collection does not hold the fraction of buckets asked for: the interval is applied to both axes, and a quarter of
`10 × 10` buckets gives 9 of them. -/
theorem C131_buckets_fraction_violated :
    ¬ ∀ (v u : ℕ) (fraction : ℝ) (t : ShiftType), 0 < fraction → fraction ≤ 1 → t.valid (v * u) →
      ∃ l, collectionShifts [v, u] [v, u] fraction t = some l ∧ l.length = min ⌈(v * u : ℕ) * fraction⌉₊ (v * u) := by
  intro h
  obtain ⟨l, h1, h2⟩ := h 10 10 (1 / 4) .interval (by norm_num) (by norm_num) (by intro p hp; cases hp)
  have hc : ⌈(1 : ℝ) / (1 / 4)⌉₊ = 4 := by norm_num
  unfold collectionShifts at h1
  simp only [hc] at h1
  have h9 : intervalShifts [10, 10] 4 = some [(0, 0), (0, 4), (0, 8), (4, 0), (4, 4), (4, 8), (8, 0), (8, 4), (8, 8)] := by decide
  rw [h9, Option.some.injEq] at h1
  rw [← h1] at h2
  have hr : ⌈((10 * 10 : ℕ) : ℝ) * (1 / 4)⌉₊ = 25 := by norm_num
  rw [hr] at h2
  simp at h2

/-- **C131, partial.** With sequential or random shifts the number of buckets is the fraction of the pixels, rounded up, at most all the
shifts. Missing: the interval. -/
theorem C131_buckets_fraction_partial (fov : List ℕ) (v u : ℕ) (fraction : ℝ) (t : ShiftType) (ht : t.valid (v * u)) (hi : t ≠ .interval) :
    ∃ l, collectionShifts fov [v, u] fraction t = some l ∧ l.length = min ⌈(fov.prod : ℝ) * fraction⌉₊ (v * u) ∧ l.Nodup := by
  cases t with
  | interval => exact absurd rfl hi
  | sequential =>
    obtain ⟨l, h1, h2, h3, -⟩ := C57_sequential_shifts v u (some ⌈(fov.prod : ℝ) * fraction⌉₊)
    exact ⟨l, h1, h2, h3⟩
  | random perm =>
    obtain ⟨l, h1, h2, h3, -⟩ := C57_random_shifts v u ⌈(fov.prod : ℝ) * fraction⌉₊ perm (ht perm rfl)
    exact ⟨l, h1, h2, h3⟩

/-! ## C132 -/

/-- **C132, violated.** A field of view given as one number, that the generators accept, gives masks with one axis, for which no collection can
be generated. -/
theorem C132_single_fov_violated :
    ¬ ∀ (sizes : List ℝ) (res fraction : ℝ) (t : ShiftType), sizes ≠ [] → (∀ s ∈ sizes, 0 < s) → 0 < res → 0 < fraction → fraction ≤ 1 →
      t.valid (initFov sizes res).prod → (collectionShifts (initFov sizes res) (initFov sizes res) fraction t).isSome := by
  intro h
  have := h [10] 1 1 .sequential (by simp) (by simp) (by norm_num) (by norm_num) (le_refl _) (by intro p hp; cases hp)
  simp [collectionShifts, initFov, sequentialShifts, intervalShifts] at this

/-- **C132.** The error comes for all the types of shifts and all fractions. -/
theorem C132_single_fov_all_violated (s res fraction : ℝ) (t : ShiftType) :
    collectionShifts (initFov [s] res) (initFov [s] res) fraction t = none := by
  cases t <;> simp [collectionShifts, initFov, sequentialShifts, randomShifts, intervalShifts]

/-- **C132, partial.** With two sizes there is a collection, the masks cover the field of view, and their pixels are not larger than asked for. -/
theorem C132_single_fov_partial (a b res fraction : ℝ) (t : ShiftType) (hr : 0 < res) (ha : 0 < a) (hb : 0 < b) :
    (collectionShifts (initFov [a, b] res) (initFov [a, b] res) fraction t).isSome ∧
      ∃ n m : ℕ, initFov [a, b] res = [n, m] ∧ 0 < n ∧ 0 < m ∧ a / n ≤ res ∧ b / m ≤ res := by
  constructor
  · cases t <;> simp [collectionShifts, initFov, sequentialShifts, randomShifts, intervalShifts]
  · have key : ∀ x : ℝ, 0 < x → 0 < ⌈x / res⌉₊ ∧ x / ⌈x / res⌉₊ ≤ res := by
      intro x hx
      have h1 : 0 < ⌈x / res⌉₊ := Nat.ceil_pos.2 (by positivity)
      refine ⟨h1, ?_⟩
      have h2 := Nat.le_ceil (x / res)
      rw [div_le_iff₀ hr] at h2
      rw [div_le_iff₀ (by exact_mod_cast h1)]
      linarith
    exact ⟨_, _, rfl, (key a ha).1, (key b hb).1, (key a ha).2, (key b hb).2⟩

/-! ## C133 -/

/-- **C133.** A pixel of the mask that lets everything pass stays so; a pixel that stops everything passes `1 - t`; the others are in between, and
in the same order. For `t = 1` the mask is not changed. -/
theorem C133_transmission (t m m' : ℝ) (ht0 : 0 ≤ t) (ht1 : t ≤ 1) (h0 : 0 ≤ m) (h1 : m ≤ 1) :
    applyTransmission t 1 = 1 ∧ applyTransmission t 0 = 1 - t ∧ 1 - t ≤ applyTransmission t m ∧ applyTransmission t m ≤ 1 ∧
      (m ≤ m' → applyTransmission t m ≤ applyTransmission t m') ∧ applyTransmission 1 m = m := by
  unfold applyTransmission
  refine ⟨by ring, by ring, by nlinarith, by nlinarith, fun h => by nlinarith, by ring⟩

/-- **C133.** The bucket of a mask with transmission is the mix of the total intensity and the bucket of the mask. -/
theorem C133_transmission_bucket {X : Type} [Fintype X] (t : ℝ) (img m : X → ℝ) :
    ghostFp (fun (_ : Unit) x => applyTransmission t (m x)) img () = (1 - t) * ∑ x, img x + t * ghostFp (fun (_ : Unit) x => m x) img () := by
  unfold ghostFp applyTransmission
  rw [Finset.mul_sum, Finset.mul_sum, ← Finset.sum_add_distrib]
  exact Finset.sum_congr rfl fun x _ => by ring

example : applyTransmission (1 / 2) 0 = 1 / 2 := by norm_num [applyTransmission]

end Verif
