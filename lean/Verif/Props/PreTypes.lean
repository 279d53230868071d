import Verif.Model.PreTypes
import Verif.Props.IntegerData
import Verif.Props.PreProc
import Mathlib.LinearAlgebra.Lagrange

/-!
# C264: polynomial backgrounds; C265: integer images in the pre-processing
-/

namespace Verif
open Polynomial PreTypes NumType

/-! ## C264 -/

/-- The sum of the squares of the distances of a polynomial from the points. -/
noncomputable def sumSq (p : ℝ[X]) (pts : List (ℝ × ℝ)) : ℝ := (pts.map fun q => (p.eval q.1 - q.2) ^ 2).sum

/-- What NumPy's `Polynomial.fit` is documented to return: a polynomial of at most the degree, as close to the points as any other. -/
def IsFit (fit : List (ℝ × ℝ) → ℕ → ℝ[X]) : Prop :=
  ∀ pts deg, (fit pts deg).natDegree ≤ deg ∧ ∀ q : ℝ[X], q.natDegree ≤ deg → sumSq (fit pts deg) pts ≤ sumSq q pts

/-- A pixel is in one of the margins. -/
def InMargin (n m0 m1 u : ℕ) : Prop := u < m0 ∨ (n - m1 ≤ u ∧ u < n)

theorem sumSq_zero {p : ℝ[X]} {pts : List (ℝ × ℝ)} (h : sumSq p pts ≤ 0) : ∀ q ∈ pts, p.eval q.1 = q.2 := by
  induction pts with
  | nil => intro q hq; cases hq
  | cons a l ih =>
    simp only [sumSq, List.map_cons, List.sum_cons] at h
    have h1 : 0 ≤ (l.map fun q : ℝ × ℝ => (p.eval q.1 - q.2) ^ 2).sum :=
      List.sum_nonneg (by intro x hx; obtain ⟨y, -, rfl⟩ := List.mem_map.mp hx; positivity)
    have h2 : 0 ≤ (p.eval a.1 - a.2) ^ 2 := by positivity
    intro q hq
    rcases List.mem_cons.mp hq with rfl | hq
    · have : (p.eval q.1 - q.2) ^ 2 = 0 := by linarith
      linarith [pow_eq_zero_iff (two_ne_zero) |>.mp this]
    · exact ih (by unfold sumSq; linarith) q hq

theorem mem_marginPoints {V : ℕ} {n m0 m1 : ℕ} {data : Fin V → ℕ → ℝ} (hm : m0 + m1 ≤ n) {u : ℕ} (hu : InMargin n m0 m1 u) :
    ((u : ℝ), (∑ v, data v u) / V) ∈ marginPoints n m0 m1 data := by
  unfold marginPoints
  refine List.mem_map.mpr ⟨u, ?_, rfl⟩
  rcases hu with h | h
  · exact List.mem_append_left _ (List.mem_range.mpr h)
  · refine List.mem_append_right _ (List.mem_map.mpr ⟨u - (n - m1), List.mem_range.mpr (by omega), by omega⟩)

/-- **C264 (partial).** If the averages of the pixels of the margins are values of a polynomial of at most the requested order (positive and smaller than the
number of these pixels), then the background is that polynomial at all pixels, whatever the data between the margins — for floating point data, or if the values of
the polynomial are integers. Margins that overlap are refused, and if one margin is empty, the background is that of order zero.
(Missing: integer data and a polynomial with fractional values, `C264_violated`.) -/
theorem C264_partial {fit : List (ℝ × ℝ) → ℕ → ℝ[X]} (hfit : IsFit fit) {V : ℕ} (t : NumType) (ht : t.Numeric) (n m0 m1 order : ℕ) (data : Fin V → ℕ → ℝ) :
    (∀ P : ℝ[X], 0 < m0 → 0 < m1 → m0 + m1 ≤ n → 0 < order → order < m0 + m1 → P.natDegree ≤ order →
      (∀ u, InMargin n m0 m1 u → (∑ v, data v u) / V = P.eval (u : ℝ)) → (t = .float ∨ ∀ u < n, IsWhole (P.eval (u : ℝ))) →
      ∃ b, background fit t n m0 m1 order data = .row b ∧ ∀ u < n, b u = P.eval (u : ℝ)) ∧
    (n < m0 + m1 → background fit t n m0 m1 order data = .valueError) ∧
    (m0 = 0 ∨ m1 = 0 → background fit t n m0 m1 order data = background fit t n m0 m1 0 data) := by
  refine ⟨fun P h0 h1 hm ho hlt hP hdata hw => ?_, fun h => by unfold background; rw [if_pos h], fun h => ?_⟩
  · refine ⟨_, by unfold background; rw [if_neg (by omega), if_pos ⟨ho, by omega, by omega⟩], fun u hu => ?_⟩
    have hz : sumSq P (marginPoints n m0 m1 data) = 0 := by
      unfold sumSq
      have : (marginPoints n m0 m1 data).map (fun q => (P.eval q.1 - q.2) ^ 2) = (marginPoints n m0 m1 data).map fun _ => (0 : ℝ) := by
        refine List.map_congr_left fun q hq => ?_
        unfold marginPoints at hq
        obtain ⟨w, hw, rfl⟩ := List.mem_map.mp hq
        have : InMargin n m0 m1 w := by
          rcases List.mem_append.mp hw with hw | hw
          · exact Or.inl (List.mem_range.mp hw)
          · obtain ⟨k, hk, rfl⟩ := List.mem_map.mp hw
            have := List.mem_range.mp hk
            exact Or.inr (by omega)
        show (P.eval (w : ℝ) - _) ^ 2 = 0
        rw [hdata w this, sub_self]
        norm_num
      rw [this]; simp
    obtain ⟨hd, hbest⟩ := hfit (marginPoints n m0 m1 data) order
    have hagree := sumSq_zero (hz ▸ hbest P hP)
    have heq : fit (marginPoints n m0 m1 data) order = P := by
      let s : Finset ℕ := Finset.range m0 ∪ Finset.Ico (n - m1) n
      have hcard : s.card = m0 + m1 := by
        rw [Finset.card_union_of_disjoint]
        · simp; omega
        · rw [Finset.disjoint_left]; intro a ha hb
          simp only [Finset.mem_range, Finset.mem_Ico] at ha hb; omega
      refine Polynomial.eq_of_degrees_lt_of_eval_index_eq s (v := fun u : ℕ => (u : ℝ)) (fun a _ b _ h => Nat.cast_injective (R := ℝ) h) ?_ ?_ ?_
      · exact lt_of_le_of_lt (Polynomial.degree_le_of_natDegree_le hd) (by rw [hcard]; exact_mod_cast hlt)
      · exact lt_of_le_of_lt (Polynomial.degree_le_of_natDegree_le hP) (by rw [hcard]; exact_mod_cast hlt)
      · intro w hw
        have hw' : InMargin n m0 m1 w := by
          simp only [s, Finset.mem_union, Finset.mem_range, Finset.mem_Ico] at hw
          rcases hw with hw | hw
          · exact Or.inl hw
          · exact Or.inr hw
        have h1 := hagree _ (mem_marginPoints (data := data) hm hw')
        simp only at h1
        rw [h1, hdata w hw']
    simp only [heq]
    exact store_whole ht (hw.imp id fun h => h u hu)
  · unfold background
    split
    · rfl
    · rw [if_neg (by rcases h with h | h <;> simp [h]), if_neg (by simp)]

/-- The hypotheses are met by a straight line `1 + 2 u` at the first and last of five pixels, with another value in between. -/
example : ∃ (P : ℝ[X]) (data : Fin 1 → ℕ → ℝ), P.natDegree ≤ 1 ∧ (∀ u, InMargin 5 1 1 u → (∑ v, data v u) / (1 : ℕ) = P.eval (u : ℝ)) ∧
    data 0 2 ≠ P.eval ((2 : ℕ) : ℝ) ∧ ∀ u : ℕ, u < 5 → IsWhole (P.eval (u : ℝ)) := by
  refine ⟨C 1 + C 2 * X, fun _ u => if u = 2 then 100 else 1 + 2 * u, ?_, ?_, ?_, fun u _ => ⟨1 + 2 * u, by simp⟩⟩
  · compute_degree
  · intro u hu
    have : u ≠ 2 := by rintro rfl; unfold InMargin at hu; omega
    simp [this]
  · norm_num

/-- C264 for order zero (or a margin of zero pixels on the left): pixels of the margins whose values over the rows have mean `c` give the background `c`. -/
theorem C264_order_zero (fit : List (ℝ × ℝ) → ℕ → ℝ[X]) {V : ℕ} (t : NumType) {n m0 m1 : ℕ} (h1 : 0 < m1) (hm : m0 + m1 ≤ n) (data : Fin V → ℕ → ℝ) (c : ℝ)
    (hdata : ∀ u, InMargin n m0 m1 u → (∑ v, data v u) / V = c) : background fit t n m0 m1 0 data = .row fun _ => c := by
  have htail : pyTailStart n m1 = n - m1 := by unfold pyTailStart; rw [if_neg h1.ne']
  unfold background
  rw [if_neg (by omega), if_neg (by simp), htail]
  congr 1
  funext _
  have e : (∑ v, (∑ u ∈ Finset.range m0, data v u + ∑ u ∈ Finset.Ico (n - m1) n, data v u) / ((m0 + m1 : ℕ) : ℝ)) / V =
      (∑ u ∈ Finset.range m0, (∑ v, data v u) / V + ∑ u ∈ Finset.Ico (n - m1) n, (∑ v, data v u) / V) / ((m0 + m1 : ℕ) : ℝ) := by
    rw [← Finset.sum_div, Finset.sum_add_distrib, Finset.sum_comm, Finset.sum_comm (s := Finset.univ) (t := Finset.Ico (n - m1) n), ← Finset.sum_div, ← Finset.sum_div]
    ring
  rw [e, Finset.sum_congr rfl fun u hu => hdata u (by have := Finset.mem_range.1 hu; unfold InMargin; omega),
    Finset.sum_congr (s₁ := Finset.Ico (n - m1) n) rfl fun u hu => hdata u (by have := Finset.mem_Ico.1 hu; unfold InMargin; omega)]
  have hne : ((m0 + m1 : ℕ) : ℝ) ≠ 0 := by
    have : 0 < m0 + m1 := by omega
    exact_mod_cast this.ne'
  rw [Finset.sum_const, Finset.sum_const, Finset.card_range, Nat.card_Ico, nsmul_eq_mul, nsmul_eq_mul]
  have : n - (n - m1) = m1 := by omega
  rw [this, ← add_mul, ← Nat.cast_add]
  field_simp

/-- **C264 (violated).** For integer data the same claim fails: margins of one pixel with the values 0 and 1, order one, three pixels. The straight line has the
value 1/2 in the middle, the background is 0 there. -/
theorem C264_violated {fit : List (ℝ × ℝ) → ℕ → ℝ[X]} (hfit : IsFit fit) :
    ¬ ∀ (t : NumType) (_ : t.Numeric) (n m0 m1 order : ℕ) (data : Fin 1 → ℕ → ℝ) (_ : ∀ v u, t.store (data v u) = data v u) (P : ℝ[X]),
      0 < m0 → 0 < m1 → m0 + m1 ≤ n → 0 < order → order < m0 + m1 → P.natDegree ≤ order →
      (∀ u, InMargin n m0 m1 u → (∑ v, data v u) / (1 : ℕ) = P.eval (u : ℝ)) →
      ∃ b, background fit t n m0 m1 order data = .row b ∧ ∀ u < n, b u = P.eval (u : ℝ) := by
  intro h
  have hd : ∀ u, InMargin 3 1 1 u → (∑ v : Fin 1, (if u = 0 then (0 : ℝ) else 1)) / (1 : ℕ) = (C (1 / 2 : ℝ) * X).eval (u : ℝ) := by
    intro u hu
    have : u = 0 ∨ u = 2 := by unfold InMargin at hu; omega
    rcases this with rfl | rfl <;> norm_num
  obtain ⟨b, hb, hval⟩ := h .int (by simp [NumType.Numeric, rank]) 3 1 1 1 (fun _ u => if u = 0 then 0 else 1)
    (by intro v u; exact trunc_whole (by split; exacts [⟨0, by norm_num⟩, ⟨1, by norm_num⟩])) (C (1 / 2) * X)
    (by norm_num) (by norm_num) (by norm_num) (by norm_num) (by norm_num) (by compute_degree) hd
  unfold background at hb
  rw [if_neg (by norm_num), if_pos (by norm_num)] at hb
  have h1 := hval 1 (by norm_num)
  cases hb
  have hw : IsWhole ((C (1 / 2 : ℝ) * X).eval ((1 : ℕ) : ℝ)) := by
    rw [← h1]
    show IsWhole (ConeBeam.trunc _)
    unfold ConeBeam.trunc
    split
    · exact ⟨_, rfl⟩
    · exact ⟨_, rfl⟩
  obtain ⟨k, hk⟩ := hw
  simp only [eval_mul, eval_C, eval_X, Nat.cast_one, mul_one] at hk
  have h3 : (1 : ℝ) = ((2 * k : ℤ) : ℝ) := by push_cast; linarith
  have h4 : (1 : ℤ) = 2 * k := by exact_mod_cast h3
  omega

/-! ## C265 -/

theorem interpOut_whole (t : NumType) {v : ℝ} (h : IsWhole v) : interpOut t v = v := by
  obtain ⟨n, rfl⟩ := h
  have h1 : ⌊(n : ℝ) + 1 / 2⌋ = n := by rw [Int.floor_eq_iff]; constructor <;> norm_num
  have h2 : ⌈(n : ℝ) - 1 / 2⌉ = n := by rw [Int.ceil_eq_iff]; constructor <;> norm_num
  have key : (if 0 < (n : ℝ) then ConeBeam.trunc ((n : ℝ) + 1 / 2) else ConeBeam.trunc ((n : ℝ) - 1 / 2)) = n := by
    unfold ConeBeam.trunc
    by_cases h : 0 < (n : ℝ)
    · rw [if_pos h, if_pos (by linarith), h1]
    · rw [if_neg h, if_neg (by linarith), h2]
  cases t with
  | float => rfl
  | bool => exact key
  | uint m => exact key
  | int => exact key

variable {d : ℕ}

/-- **C265 (partial).** Pre-processing of floating point images is that of exact arithmetic; integer projections that are shifted by whole pixels are as well.
(Missing: SNIP backgrounds of integer images, and shifts of integer projections by fractions of a pixel: `C265_violated`.) -/
theorem C265_partial (window : ℕ) (shape : Fin d → ℕ) (iterations W : ℕ) (img : (Fin d → ℤ) → ℝ) (data : Fin W → (Fin d → ℤ) → ℝ)
    (shifts : Fin W → Fin d → ℝ) :
    snipTyped .float window shape iterations img = .ok (snip window shape iterations img) ∧
    backgroundFromSnipTyped .float W shape iterations data = .ok (backgroundFromSnip W shape iterations none data) ∧
    shiftProjStackTyped .float W shape data shifts = shiftProjStack W shape data shifts ∧
    ∀ (t : NumType) (w : Fin W), (∀ i, IsWhole (data w i)) → (∀ a, IsWhole (shifts w a)) → (∀ a, 0 < shape a) →
      shiftProjStackTyped t W shape data shifts w = shiftProjStack W shape data shifts w := by
  refine ⟨?_, ?_, rfl, fun t w hd hs hp => ?_⟩
  · unfold snipTyped; exact if_pos (inPlace_float _)
  · unfold backgroundFromSnipTyped; exact if_pos (Or.inr (inPlace_float _))
  · choose k hk using hs
    funext i
    unfold shiftProjStackTyped
    rw [interpOut_whole]
    rw [(C166_shift_projections W shape hp data shifts).2.1 w k hk i]
    exact hd _

/-- The hypotheses are met by a projection of integers and a shift by two pixels. -/
example : (∀ i : Fin 1 → ℤ, IsWhole ((i 0 : ℤ) : ℝ)) ∧ IsWhole 2 := ⟨fun i => ⟨i 0, rfl⟩, ⟨2, by norm_num⟩⟩

/-- **C265 (violated).** The SNIP background refuses every integer image, of any size, for any window and number of iterations (even none); and a shift by half a
pixel of the integer projection `0, 1, 2, …` does not give the averages of neighbours, but `1, 2, …` (it did not move). -/
theorem C265_violated :
    (∀ (t : NumType) (_ : t.Integer) (window : ℕ) (shape : Fin d → ℕ) (iterations : ℕ) (img : (Fin d → ℤ) → ℝ),
      snipTyped t window shape iterations img = .error .typeError) ∧
    (∀ (t : NumType) (_ : t.Integer) (W : ℕ) (_ : W ≠ 0) (shape : Fin d → ℕ) (iterations : ℕ) (data : Fin W → (Fin d → ℤ) → ℝ),
      backgroundFromSnipTyped t W shape iterations data = .error .typeError) ∧
    ∀ (n : ℕ) (i : ℤ), 1 ≤ i → i < n →
      shiftProjStackTyped .int 1 (fun _ : Fin 1 => n) (fun _ j => ((j 0 : ℤ) : ℝ)) (fun _ _ => 1 / 2) 0 (fun _ => i) = i ∧
      shiftProjStack 1 (fun _ : Fin 1 => n) (fun _ j => ((j 0 : ℤ) : ℝ)) (fun _ _ => 1 / 2) 0 (fun _ => i) = i - 1 / 2 := by
  refine ⟨fun t ht w sh it img => ?_, fun t ht W hW sh it dat => ?_, fun n i hi hn => ?_⟩
  · unfold snipTyped; exact if_neg (not_inPlace_float ht)
  · unfold backgroundFromSnipTyped; rw [if_neg (by rintro (h | h); exacts [hW h, not_inPlace_float ht h])]
  · have h := C166_fraction n (fun j => (j : ℝ)) 0 (1 / 2) (by norm_num) (by norm_num) i (by linarith) (by linarith)
    have e : shiftProjStack 1 (fun _ : Fin 1 => n) (fun _ j => ((j 0 : ℤ) : ℝ)) (fun _ _ => 1 / 2) 0 (fun _ => i) = i - 1 / 2 := by
      have : (fun (_ : Fin 1) (_ : Fin 1) => ((0 : ℤ) : ℝ) + 1 / 2) = fun _ _ => 1 / 2 := by funext _ _; norm_num
      rw [this] at h
      rw [h]
      push_cast
      ring
    refine ⟨?_, e⟩
    unfold shiftProjStackTyped
    rw [e]
    have hi' : (1 : ℝ) ≤ i := by exact_mod_cast hi
    show (if 0 < (i : ℝ) - 1 / 2 then ConeBeam.trunc ((i : ℝ) - 1 / 2 + 1 / 2) else _) = (i : ℝ)
    rw [if_pos (by linarith), show (i : ℝ) - 1 / 2 + 1 / 2 = i by ring]
    exact trunc_whole ⟨i, rfl⟩

end Verif
