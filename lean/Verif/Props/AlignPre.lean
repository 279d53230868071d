import Verif.Model.AlignPre
import Verif.Props.CrossCorrelation
import Verif.Props.SvdAxes
import Verif.Props.Recentring
import Verif.Props.Fits
import Mathlib.Analysis.SpecialFunctions.Trigonometric.Angle

/-! # C159–C164: peaks, two-dimensional refinement, sums of absolute differences, pre-alignment, full scans, drifts -/

namespace Verif
open ZMod Finset

theorem argmax_spec (f : ℕ → ℝ) (n : ℕ) (hn : 0 < n) :
    argmax f n < n ∧ (∀ i < n, f i ≤ f (argmax f n)) ∧ ∀ i < argmax f n, f i < f (argmax f n) := by
  obtain ⟨h1, h2, h3⟩ := argmin_spec (fun i => -f i) n hn
  exact ⟨h1, fun i hi => neg_le_neg_iff.1 (h2 i hi), fun i hi => neg_lt_neg_iff.1 (h3 i hi)⟩

theorem argmax_unique (f : ℕ → ℝ) (n m : ℕ) (hm : m < n) (h1 : ∀ i < n, f i ≤ f m) (h2 : ∀ i < m, f i < f m) : argmax f n = m := by
  obtain ⟨g1, g2, g3⟩ := argmax_spec f n (by omega)
  rcases lt_trichotomy (argmax f n) m with h | h | h
  · exact absurd (g2 m hm) (not_le.2 (h2 _ h))
  · exact h
  · exact absurd (h1 _ g1) (not_le.2 (g3 _ h))

/-! ## C159: regions around peaks -/

/-- C159, lines: along either axis, the extracted values of a line are those around its first maximum, continued around the borders,
and so are their coordinates. -/
theorem C159_line_peaks (s0 s1 : ℕ) (cc : ℕ → ℕ → ℝ) (last : Bool) (radius : ℕ) (coords : ℕ → ℝ) (line : ℕ)
    (hs : 0 < if last then s1 else s0) :
    let size := if last then s1 else s0
    let L := fun i => if last then cc line i else cc i line
    ∃ m < size, (∀ i < size, L i ≤ L m) ∧ (∀ i < m, L i < L m) ∧
      peakRegion1d s0 s1 cc last radius coords radius line = (L m, coords m) ∧
      ∀ o : ℤ, -radius ≤ o → o ≤ radius → ∀ p : ℕ, p < size → (∃ z : ℤ, (p : ℤ) = m + o + z * size) →
        peakRegion1d s0 s1 cc last radius coords (o + radius).toNat line = (L p, coords p) := by
  intro size L
  obtain ⟨h1, h2, h3⟩ := argmax_spec L size hs
  have key : ∀ o : ℤ, -radius ≤ o → o ≤ radius → ∀ p : ℕ, p < size → (∃ z : ℤ, (p : ℤ) = argmax L size + o + z * size) →
        peakRegion1d s0 s1 cc last radius coords (o + radius).toNat line = (L p, coords p) := by
    intro o ho1 _ p hp hz
    obtain ⟨z, hz⟩ := hz
    have e : ((((argmax L size : ℕ) : ℤ) + (((o + radius).toNat : ℤ) - radius)) % size).toNat = p := by
      have : (((o + radius).toNat : ℕ) : ℤ) = o + radius := Int.toNat_of_nonneg (by omega)
      rw [this, show ((argmax L size : ℕ) : ℤ) + (o + radius - radius) = p - z * size by omega, Int.sub_mul_emod_self_right,
        Int.emod_eq_of_lt (by omega) (by omega)]
      simp
    show (L ((((argmax L size : ℕ) : ℤ) + (((o + radius).toNat : ℤ) - radius)) % size).toNat, _) = _
    rw [e]
  refine ⟨argmax L size, h1, h2, h3, ?_, key⟩
  have := key 0 (by omega) (by omega) (argmax L size) h1 ⟨0, by ring⟩
  simpa using this

/-- Non-vacuity: the maximum 5 of the line 5, 2, 3 has the neighbours 3 (around the border) and 2. -/
example : (peakRegion1d 1 3 (fun _ i => ([5, 2, 3] : List ℝ).getD i 0) true 1 (fun i => i) 0 0) = (3, 2) := by
  obtain ⟨m, hm, h1, h2, -, h4⟩ := C159_line_peaks 1 3 (fun _ i => ([5, 2, 3] : List ℝ).getD i 0) true 1 (fun i => i) 0 (by simp)
  simp only [if_true] at hm h1 h2 h4
  have hm0 : m = 0 := by
    by_contra hne
    have := h1 0 (by norm_num)
    interval_cases m
    · exact hne rfl
    · norm_num at this
    · norm_num at this
  subst hm0
  have := h4 (-1) (by norm_num) (by norm_num) 2 (by norm_num) ⟨1, by norm_num⟩
  simpa using this

/-- C159, arrays of any number of axes: the central value is the largest of the array, at a valid position, and the other values are
those at the positions around it, continued around the borders. -/
theorem C159_array_peak (shape : List ℕ) (cc : List ℕ → ℝ) (radius : ℕ) (hs : 0 < shape.prod) :
    ∃ pos, InShape shape pos ∧ (∀ q, InShape shape q → cc q ≤ cc pos) ∧
      peakRegionNd shape cc radius (List.replicate shape.length radius) = cc pos ∧
      ∀ ks q, ks.length = shape.length → InShape shape q →
        (∀ a < shape.length, ∃ z : ℤ, ((q.getD a 0 : ℕ) : ℤ) = pos.getD a 0 + (ks.getD a 0 - radius) + z * shape.getD a 0) →
        peakRegionNd shape cc radius ks = cc q := by
  obtain ⟨h1, h2, -⟩ := argmax_spec (fun i => cc (unravel shape i)) shape.prod hs
  set pos := peakPosNd shape cc with hpos
  have hin : InShape shape pos := unravel_inShape h1
  have hlen := inShape_length hin
  have key : ∀ ks q, ks.length = shape.length → InShape shape q →
        (∀ a < shape.length, ∃ z : ℤ, ((q.getD a 0 : ℕ) : ℤ) = pos.getD a 0 + (ks.getD a 0 - radius) + z * shape.getD a 0) →
        peakRegionNd shape cc radius ks = cc q := by
    intro ks q hk hq hz
    have hql := inShape_length hq
    unfold peakRegionNd
    congr 1
    unfold peakIndexNd
    rw [← hpos]
    apply List.ext_getElem
    · simp; omega
    · intro a ha1 ha2
      have ha : a < shape.length := by omega
      obtain ⟨z, hz⟩ := hz a ha
      have hlt := (inShape_getD.1 hq).2 a ha
      have e1 : pos.getD a 0 = pos[a]'(by omega) := by simp [show a < pos.length by omega]
      have e2 : ks.getD a 0 = ks[a]'(by omega) := by simp [show a < ks.length by omega]
      have e3 : q.getD a 0 = q[a]'(by omega) := by simp [show a < q.length by omega]
      have e4 : shape.getD a 0 = shape[a]'(by omega) := by simp [ha]
      rw [e1, e2, e3, e4] at hz
      rw [e3, e4] at hlt
      simp only [List.getElem_zipWith]
      rw [show ((pos[a]'(by omega) : ℕ) : ℤ) - radius + (ks[a]'(by omega) : ℕ) = (q[a]'(by omega) : ℕ) - z * (shape[a]'(by omega) : ℕ) by
        linarith, Int.sub_mul_emod_self_right, Int.emod_eq_of_lt (by omega) (by omega)]
      simp
  refine ⟨pos, hin, ?_, ?_, key⟩
  · intro q hq
    have := h2 (ravel shape q) (ravel_lt hq)
    rw [unravel_ravel hq] at this
    exact this
  · refine key _ pos (by simp) hin fun a ha => ⟨0, ?_⟩
    simp [List.getD_eq_getElem?_getD, List.getElem?_replicate, ha]

/-! ## C160: two-dimensional refinement -/

private theorem quad1_zero {a b c x0 x1 x2 : ℝ} (h01 : x0 ≠ x1) (h02 : x0 ≠ x2) (h12 : x1 ≠ x2) (e0 : a + b * x0 + c * x0 ^ 2 = 0)
    (e1 : a + b * x1 + c * x1 ^ 2 = 0) (e2 : a + b * x2 + c * x2 ^ 2 = 0) : a = 0 ∧ b = 0 ∧ c = 0 := by
  have d01 : b + c * (x0 + x1) = 0 := by
    have : (x0 - x1) * (b + c * (x0 + x1)) = 0 := by linear_combination e0 - e1
    exact (mul_eq_zero.1 this).resolve_left (sub_ne_zero.2 h01)
  have d02 : b + c * (x0 + x2) = 0 := by
    have : (x0 - x2) * (b + c * (x0 + x2)) = 0 := by linear_combination e0 - e2
    exact (mul_eq_zero.1 this).resolve_left (sub_ne_zero.2 h02)
  have hc : c = 0 := by
    have : (x1 - x2) * c = 0 := by linear_combination d01 - d02
    exact (mul_eq_zero.1 this).resolve_left (sub_ne_zero.2 h12)
  subst hc
  have hb : b = 0 := by linarith
  subst hb
  exact ⟨by linarith, rfl, rfl⟩

private theorem quad2_zero {m n : ℕ} (hm : 3 ≤ m) (hn : 3 ≤ n) (ys : Fin m → ℝ) (xs : Fin n → ℝ) (hy : Function.Injective ys)
    (hx : Function.Injective xs) (c : Fin 6 → ℝ) (h : ∀ i j, quad2 c (ys i) (xs j) = 0) : ∀ k, c k = 0 := by
  have ny : ∀ a b : ℕ, a < 3 → b < 3 → a ≠ b → ∀ (ha : a < m) (hb : b < m), ys ⟨a, ha⟩ ≠ ys ⟨b, hb⟩ :=
    fun a b _ _ hab ha hb he => hab (Fin.mk.inj_iff.1 (hy he))
  have nx : ∀ a b : ℕ, a < 3 → b < 3 → a ≠ b → ∀ (ha : a < n) (hb : b < n), xs ⟨a, ha⟩ ≠ xs ⟨b, hb⟩ :=
    fun a b _ _ hab ha hb he => hab (Fin.mk.inj_iff.1 (hx he))
  have row : ∀ j, c 0 + c 2 * xs j + c 5 * xs j ^ 2 = 0 ∧ c 1 + c 3 * xs j = 0 ∧ c 4 = 0 := by
    intro j
    have e := fun i => h i j
    simp only [quad2] at e
    refine quad1_zero (ny 0 1 (by norm_num) (by norm_num) (by norm_num) (by omega) (by omega))
      (ny 0 2 (by norm_num) (by norm_num) (by norm_num) (by omega) (by omega))
      (ny 1 2 (by norm_num) (by norm_num) (by norm_num) (by omega) (by omega)) ?_ ?_ ?_
    · linarith [e ⟨0, by omega⟩]
    · linarith [e ⟨1, by omega⟩]
    · linarith [e ⟨2, by omega⟩]
  have q1 := quad1_zero (nx 0 1 (by norm_num) (by norm_num) (by norm_num) (by omega) (by omega))
      (nx 0 2 (by norm_num) (by norm_num) (by norm_num) (by omega) (by omega))
      (nx 1 2 (by norm_num) (by norm_num) (by norm_num) (by omega) (by omega)) (row ⟨0, by omega⟩).1 (row ⟨1, by omega⟩).1 (row ⟨2, by omega⟩).1
  have q2 := quad1_zero (a := c 1) (b := c 3) (c := 0) (nx 0 1 (by norm_num) (by norm_num) (by norm_num) (by omega) (by omega))
      (nx 0 2 (by norm_num) (by norm_num) (by norm_num) (by omega) (by omega))
      (nx 1 2 (by norm_num) (by norm_num) (by norm_num) (by omega) (by omega)) (by linarith [(row ⟨0, by omega⟩).2.1])
      (by linarith [(row ⟨1, by omega⟩).2.1]) (by linarith [(row ⟨2, by omega⟩).2.1])
  have q3 := (row ⟨0, by omega⟩).2.2
  intro k
  fin_cases k
  · exact q1.1
  · exact q2.1
  · exact q1.2.1
  · exact q2.2.1
  · exact q3
  · exact q1.2.2

/-- A least-squares solution of a system that has a solution is a solution. -/
private theorem lstsq_exact {n m : ℕ} (rows : (Fin m → ℝ) → Fin n → ℝ) (k k0 : Fin m → ℝ) (h0 : ∀ i, rows k0 i = 0) :
    IsLstsq rows k ↔ ∀ i, rows k i = 0 := by
  constructor
  · intro h i
    have h1 := h k0
    simp only [h0, ne_eq, OfNat.ofNat_ne_zero, not_false_eq_true, zero_pow, sum_const_zero] at h1
    have h2 := (sum_eq_zero_iff_of_nonneg fun i _ => sq_nonneg (rows k i)).1 (le_antisymm h1 (sum_nonneg fun i _ => sq_nonneg _)) i (mem_univ _)
    exact pow_eq_zero_iff (two_ne_zero) |>.1 h2
  · intro h k'
    simp only [h, ne_eq, OfNat.ofNat_ne_zero, not_false_eq_true, zero_pow, sum_const_zero]
    exact sum_nonneg fun i _ => sq_nonneg _

private theorem fit_coeffs {m n : ℕ} (hm : 3 ≤ m) (hn : 3 ≤ n) (ys : Fin m → ℝ) (xs : Fin n → ℝ) (hy : Function.Injective ys)
    (hx : Function.Injective xs) (q c : Fin 6 → ℝ) :
    IsLstsq (fun c (p : Fin (m * n)) => quad2 c (ys (finProdFinEquiv.symm p).1) (xs (finProdFinEquiv.symm p).2)
      - quad2 q (ys (finProdFinEquiv.symm p).1) (xs (finProdFinEquiv.symm p).2)) c ↔ c = q := by
  rw [lstsq_exact _ _ q (fun i => sub_self _)]
  constructor
  · intro h
    have hz := quad2_zero hm hn ys xs hy hx (fun k => c k - q k) (by
      intro i j
      have := h (finProdFinEquiv (i, j))
      simp only [Equiv.symm_apply_apply, quad2] at this ⊢
      linarith)
    funext k
    linarith [hz k]
  · rintro rfl i
    exact sub_self _

private theorem vertex_solve (q : Fin 6 → ℝ) (hdet : 4 * q 4 * q 5 - q 3 ^ 2 ≠ 0) (v v' : Fin 2 → ℝ) (h : ∀ i, vertexRows q v i = 0) :
    IsLstsq (vertexRows q) v' ↔ v' = v := by
  rw [lstsq_exact _ _ v h]
  constructor
  · intro h'
    have a0 := h 0; have a1 := h 1; have b0 := h' 0; have b1 := h' 1
    simp only [vertexRows, Matrix.cons_val_zero, Matrix.cons_val_one] at a0 a1 b0 b1
    have e0 : (4 * q 4 * q 5 - q 3 ^ 2) * (v' 0 - v 0) = 0 := by linear_combination 2 * q 5 * (b0 - a0) - q 3 * (b1 - a1)
    have e1 : (4 * q 4 * q 5 - q 3 ^ 2) * (v' 1 - v 1) = 0 := by linear_combination 2 * q 4 * (b1 - a1) - q 3 * (b0 - a0)
    funext k
    fin_cases k
    · exact sub_eq_zero.1 ((mul_eq_zero.1 e0).resolve_left hdet)
    · exact sub_eq_zero.1 ((mul_eq_zero.1 e1).resolve_left hdet)
  · rintro rfl
    exact h

/-- Specification: the stationary point of the polynomial. -/
def IsVertex (q : Fin 6 → ℝ) (v : Fin 2 → ℝ) : Prop :=
  HasDerivAt (fun y => quad2 q y (v 1)) 0 (v 0) ∧ HasDerivAt (fun x => quad2 q (v 0) x) 0 (v 1)

private theorem vertex_rows (q : Fin 6 → ℝ) (v : Fin 2 → ℝ) : IsVertex q v ↔ ∀ i, vertexRows q v i = 0 := by
  have d0 : HasDerivAt (fun y => quad2 q y (v 1)) (vertexRows q v 0) (v 0) := by
    have h := (((((hasDerivAt_const (v 0) (q 0)).fun_add ((hasDerivAt_id (v 0)).const_mul (q 1))).fun_add
      (hasDerivAt_const (v 0) (q 2 * v 1))).fun_add (((hasDerivAt_id (v 0)).mul_const (v 1)).const_mul (q 3))).fun_add
      (((hasDerivAt_id (v 0)).fun_pow 2).const_mul (q 4))).fun_add (hasDerivAt_const (v 0) (q 5 * v 1 ^ 2))
    refine h.congr_deriv ?_
    simp [vertexRows]; ring
  have d1 : HasDerivAt (fun x => quad2 q (v 0) x) (vertexRows q v 1) (v 1) := by
    have h := (((((hasDerivAt_const (v 1) (q 0)).fun_add (hasDerivAt_const (v 1) (q 1 * v 0))).fun_add
      ((hasDerivAt_id (v 1)).const_mul (q 2))).fun_add (((hasDerivAt_id (v 1)).const_mul (v 0)).const_mul (q 3))).fun_add
      (hasDerivAt_const (v 1) (q 4 * v 0 ^ 2))).fun_add (((hasDerivAt_id (v 1)).fun_pow 2).const_mul (q 5))
    refine h.congr_deriv ?_
    simp [vertexRows]; ring
  constructor
  · rintro ⟨h0, h1⟩ i
    fin_cases i
    · exact d0.unique h0
    · exact d1.unique h1
  · intro h
    exact ⟨h 0 ▸ d0, h 1 ▸ d1⟩

/-- C160 with given coordinates, or with three samples: for samples of a polynomial of degree two with a single stationary point, that
point is returned if it is inside the ranges of the coordinates, otherwise an error is raised. -/
theorem C160_vertex_partial {m n : ℕ} (hm : 3 ≤ m) (hn : 3 ≤ n) (fy : Option (Fin m → ℝ)) (fx : Option (Fin n → ℝ))
    (hfy : fy.isSome ∨ m = 3) (hfx : fx.isSome ∨ n = 3)
    (hy : Function.Injective (sampleCoords fy)) (hx : Function.Injective (sampleCoords fx)) (q : Fin 6 → ℝ)
    (hdet : 4 * q 4 * q 5 - q 3 ^ 2 ≠ 0) (v : Fin 2 → ℝ) (hv : IsVertex q v) (r : Option (Fin 2 → ℝ)) :
    RefineMax2d (fun i j => quad2 q (sampleCoords fy i) (sampleCoords fx j)) fy fx r ↔
      r = if (⨅ i, sampleCoords fy i) ≤ v 0 ∧ v 0 ≤ (⨆ i, sampleCoords fy i) ∧ (⨅ j, sampleCoords fx j) ≤ v 1 ∧
        v 1 ≤ (⨆ j, sampleCoords fx j) then some v else none := by
  have hsy : sampleFactor fy = 1 := by
    cases fy with
    | some _ => rfl
    | none => have : m = 3 := by simpa using hfy
              subst this; norm_num [sampleFactor]
  have hsx : sampleFactor fx = 1 := by
    cases fx with
    | some _ => rfl
    | none => have : n = 3 := by simpa using hfx
              subst this; norm_num [sampleFactor]
  unfold RefineMax2d RefineMax2dCore
  rw [hsy, hsx]
  have hq : (![q 0, q 1 * 1, q 2 * 1, q 3 * (1 * 1), q 4 * 1 ^ 2, q 5 * 1 ^ 2] : Fin 6 → ℝ) = q := by
    funext k; fin_cases k <;> simp
  constructor
  · rintro ⟨c, hc, v', hv', h⟩
    rw [fit_coeffs hm hn _ _ hy hx] at hc
    subst hc
    rw [hq, vertex_solve c hdet v v' ((vertex_rows c v).1 hv)] at hv'
    subst hv'
    rcases h with ⟨rfl, h⟩ | ⟨rfl, h⟩
    · rw [if_pos h]
    · rw [if_neg h]
  · intro hr
    refine ⟨q, (fit_coeffs hm hn _ _ hy hx q q).2 rfl, v, ?_, ?_⟩
    · rw [hq]
      exact (vertex_solve q hdet v v ((vertex_rows q v).1 hv)).2 rfl
    · split_ifs at hr with h
      · exact .inl ⟨hr, h⟩
      · exact .inr ⟨hr, h⟩

private theorem linspace_inj (n : ℕ) (hn : 2 ≤ n) : Function.Injective (sampleCoords (n := n) none) := by
  intro i j h
  have hn1 : (0 : ℝ) < n - 1 := by
    have : (2 : ℝ) ≤ n := by exact_mod_cast hn
    linarith
  simp only [sampleCoords, linspaceUnit] at h
  have h1 : (2 * ((i : ℕ) : ℝ)) / (n - 1) = (2 * ((j : ℕ) : ℝ)) / (n - 1) := by linarith
  rw [div_left_inj' hn1.ne'] at h1
  have h2 : ((i : ℕ) : ℝ) = ((j : ℕ) : ℝ) := by linarith
  exact Fin.ext (by exact_mod_cast h2)

/-- C160 is violated by the default coordinates of more than three samples: the maximum of `-(y - 1/2)² - x²`, sampled at the default
coordinates of a 5 × 5 region, is said to be at `(1/4, 0)`. -/
theorem C160_default_coordinates_violated : ¬ ∀ (m n : ℕ) (q : Fin 6 → ℝ) (v : Fin 2 → ℝ) (r : Option (Fin 2 → ℝ)), 3 ≤ m → 3 ≤ n →
    4 * q 4 * q 5 - q 3 ^ 2 ≠ 0 → IsVertex q v → (∀ k, |v k| < 1) →
    RefineMax2d (fun (i : Fin m) (j : Fin n) => quad2 q (sampleCoords none i) (sampleCoords none j)) none none r → r = some v := by
  intro h
  have hsc : ∀ i : Fin 5, sampleCoords (n := 5) none i = -1 + (i : ℕ) / 2 := by
    intro i
    simp only [sampleCoords, linspaceUnit]
    push_cast; ring
  have h1 := h 5 5 ![-1 / 4, 1, 0, 0, -1, -1] ![1 / 2, 0] (some ![1 / 4, 0]) (by norm_num) (by norm_num) (by simp) ?_ ?_ ?_
  · have := congrFun (Option.some.inj h1) 0
    norm_num at this
  · rw [vertex_rows]
    intro i
    fin_cases i <;> simp [vertexRows]
  · intro k
    fin_cases k <;> simp <;> norm_num
  · refine ⟨![-1 / 4, 1, 0, 0, -1, -1], ?_, ![1 / 4, 0], ?_, .inl ⟨rfl, ?_⟩⟩
    · exact (fit_coeffs (by norm_num) (by norm_num) _ _ (linspace_inj 5 (by norm_num)) (linspace_inj 5 (by norm_num)) _ _).2 rfl
    · rw [lstsq_exact _ _ ![1 / 4, 0]]
      · intro i
        fin_cases i <;> simp [vertexRows, sampleFactor]; norm_num
      · intro i
        fin_cases i <;> simp [vertexRows, sampleFactor]; norm_num
    · have hb : ∀ f : Fin 5 → ℝ, (∀ i, f i = -1 + ((i : ℕ) : ℝ) / 2) → (⨅ i, f i) ≤ -1 ∧ 1 ≤ ⨆ i, f i := by
        intro f hf
        constructor
        · refine (ciInf_le (Set.finite_range f).bddBelow 0).trans ?_
          rw [hf]; simp
        · refine le_trans ?_ (le_ciSup (Set.finite_range f).bddAbove 4)
          rw [hf]; norm_num
      obtain ⟨b1, b2⟩ := hb _ hsc
      change (⨅ i, sampleCoords (n := 5) none i) ≤ (![1 / 4, 0] : Fin 2 → ℝ) 0 ∧ (![1 / 4, 0] : Fin 2 → ℝ) 0 ≤ (⨆ i, sampleCoords (n := 5) none i) ∧
        (⨅ i, sampleCoords (n := 5) none i) ≤ (![1 / 4, 0] : Fin 2 → ℝ) 1 ∧ (![1 / 4, 0] : Fin 2 → ℝ) 1 ≤ (⨆ i, sampleCoords (n := 5) none i)
      simp only [Matrix.cons_val_zero, Matrix.cons_val_one]
      exact ⟨by linarith, by linarith, by linarith, by linarith⟩

/-- The hypotheses of `C160_vertex_partial` are met by the 3 × 3 neighbourhood of a peak. -/
example : RefineMax2d (fun (i : Fin 3) (j : Fin 3) => quad2 ![0, 0, 0, 0, -1, -1] (sampleCoords none i) (sampleCoords none j)) none none
    (if (⨅ i, sampleCoords (n := 3) none i) ≤ (0 : ℝ) ∧ (0 : ℝ) ≤ (⨆ i, sampleCoords (n := 3) none i) ∧
      (⨅ j, sampleCoords (n := 3) none j) ≤ (0 : ℝ) ∧ (0 : ℝ) ≤ (⨆ j, sampleCoords (n := 3) none j) then some ![0, 0] else none) :=
  (C160_vertex_partial (by norm_num) (by norm_num) none none (.inr rfl) (.inr rfl) (linspace_inj 3 (by norm_num))
    (linspace_inj 3 (by norm_num)) _ (by simp) ![0, 0] (by
      rw [vertex_rows]; intro i; fin_cases i <;> simp [vertexRows]) _).2 rfl


/-! ## C161: sums of absolute differences -/

/-- The Fourier shift by a whole number of pixels is a circular displacement. -/
theorem fourierShiftRow_eq {N : ℕ} [NeZero N] (x : ZMod N → ℝ) (s : ℤ) (j : ZMod N) : fourierShiftRow x s j = x (j - (s : ZMod N)) := by
  have hN : (N : ℂ) ≠ 0 := by exact_mod_cast NeZero.ne N
  have h1 : ∑ k : ZMod N, (∑ i : ZMod N, (x i : ℂ) * stdAddChar (-(k * i))) * stdAddChar (-(k * (s : ZMod N))) * stdAddChar (k * j) =
      N * (x (j - (s : ZMod N)) : ℂ) := by
    have e : ∀ k : ZMod N, (∑ i : ZMod N, (x i : ℂ) * stdAddChar (-(k * i))) * stdAddChar (-(k * (s : ZMod N))) * stdAddChar (k * j) =
        ∑ i : ZMod N, (x i : ℂ) * stdAddChar (k * (j - (s : ZMod N) - i)) := by
      intro k
      rw [sum_mul, sum_mul]
      refine sum_congr rfl fun i _ => ?_
      rw [show k * (j - (s : ZMod N) - i) = -(k * i) + -(k * (s : ZMod N)) + k * j by ring, AddChar.map_add_eq_mul, AddChar.map_add_eq_mul]
      ring
    rw [sum_congr rfl fun k _ => e k, sum_comm]
    simp only [← mul_sum, char_sum]
    rw [sum_eq_single (j - (s : ZMod N))]
    · simp [mul_comm]
    · intro i _ hi
      rw [if_neg fun h => hi (sub_eq_zero.1 h).symm, mul_zero]
    · simp
  unfold fourierShiftRow
  rw [h1, mul_div_cancel_left₀ _ hN, Complex.ofReal_re]

/-- The values of a padded row, displaced by at most the padding. -/
private theorem padZero_shift {n R : ℕ} [NeZero (n + 2 * R)] (f : ℤ → ℝ) (hf : ∀ k, f k ≠ 0 → 0 ≤ k ∧ k < n) (z : ℤ) (h1 : -(R : ℤ) ≤ z)
    (h2 : z < n + 3 * R) : padZeroRow n R (fun i => f (i : ℕ)) ((z : ZMod (n + 2 * R))).val = f (z - R) := by
  have hz0 : ∀ k : ℤ, ¬ (0 ≤ k ∧ k < n) → f k = 0 := fun k hk => by
    by_contra hne
    exact hk (hf k hne)
  have hv : (((z : ZMod (n + 2 * R)).val : ℕ) : ℤ) = z % ((n + 2 * R : ℕ) : ℤ) := by rw [ZMod.val_intCast]
  set w := (z : ZMod (n + 2 * R)).val with hw
  have cases : (w : ℤ) = z ∨ (z < 0 ∧ (w : ℤ) = z + (n + 2 * R)) ∨ ((n : ℤ) + 2 * R ≤ z ∧ (w : ℤ) = z - (n + 2 * R)) := by
    rcases lt_or_ge z 0 with hz | hz
    · right; left
      refine ⟨hz, ?_⟩
      rw [hv, ← Int.add_emod_right, Int.emod_eq_of_lt (by omega) (by omega)]
      push_cast; ring
    · rcases lt_or_ge z ((n : ℤ) + 2 * R) with hz' | hz'
      · left
        rw [hv, Int.emod_eq_of_lt hz (by omega)]
      · right; right
        refine ⟨hz', ?_⟩
        rw [hv, ← Int.sub_emod_right, Int.emod_eq_of_lt (by omega) (by omega)]
        push_cast; ring
  unfold padZeroRow
  rcases cases with h | ⟨hz, h⟩ | ⟨hz, h⟩
  · split_ifs with c1 c2
    · exact (hz0 _ (by omega)).symm
    · show f _ = f _
      congr 1; omega
    · exact (hz0 _ (by omega)).symm
  · rw [hz0 (z - R) (by omega)]
    split_ifs with c1 c2
    · rfl
    · exact hz0 _ (by omega)
    · rfl
  · rw [hz0 (z - R) (by omega)]
    split_ifs with c1 c2
    · rfl
    · exact hz0 _ (by omega)
    · rfl

/-- Distance of a circular row to itself, displaced by `a`. -/
private noncomputable def selfDiff {N : ℕ} [NeZero N] (F : ZMod N → ℝ) (p : ℕ) (a : ZMod N) : ℝ := ∑ j, |F j - F (j - a)| ^ p

private theorem selfDiff_neg {N : ℕ} [NeZero N] (F : ZMod N → ℝ) (p : ℕ) (a : ZMod N) : selfDiff F p (-a) = selfDiff F p a := by
  unfold selfDiff
  rw [← Equiv.sum_comp (Equiv.subRight a)]
  refine sum_congr rfl fun j _ => ?_
  simp only [Equiv.subRight_apply, sub_neg_eq_add, sub_add_cancel]
  rw [abs_sub_comm]

private theorem sadDiff_eq {n R : ℕ} [NeZero (n + 2 * R)] (p : ℕ) (f g : ℤ → ℝ)
    (hf : ∀ k, f k ≠ 0 → 0 ≤ k ∧ k < n) (hg : ∀ k, g k ≠ 0 → 0 < k ∧ k < (n : ℤ) - 1) (s : ℤ) (hs : |s| ≤ R) (h : ∀ k, g k = f (k - s)) (t : ℤ) :
    sadDiff n R p (fun i => g (i : ℕ)) (fun i => f (i : ℕ)) t =
      (selfDiff (fun j : ZMod (n + 2 * R) => padZeroRow n R (fun i => f (i : ℕ)) j.val) p (t - s)) ^ ((1 : ℝ) / p) := by
  obtain ⟨hs1, hs2⟩ := abs_le.1 hs
  have hz0 : ∀ k, ¬ (0 < k ∧ k < (n : ℤ) - 1) → g k = 0 := fun k hk => by
    by_contra hne
    exact hk (hg k hne)
  unfold sadDiff selfDiff
  congr 1
  rw [← Equiv.sum_comp (Equiv.addRight (s : ZMod (n + 2 * R)))]
  rw [← Equiv.sum_comp (Equiv.subRight (s : ZMod (n + 2 * R)))
    (fun j => |padZeroRow n R (fun i => f (i : ℕ)) j.val - padZeroRow n R (fun i => f (i : ℕ)) (j - ((t : ZMod (n + 2 * R)) - s)).val| ^ p)]
  rw [Equiv.sum_comp (Equiv.addRight (s : ZMod (n + 2 * R))) (fun j =>
    |padEdgeRow n R (fun i => g (i : ℕ)) j.val - fourierShiftRow (fun i => padZeroRow n R (fun i => f (i : ℕ)) i.val) t j| ^ p)]
  refine sum_congr rfl fun j _ => ?_
  rw [fourierShiftRow_eq]
  simp only [Equiv.subRight_apply]
  rw [show j - (s : ZMod (n + 2 * R)) - ((t : ZMod (n + 2 * R)) - s) = j - t by ring]
  congr 3
  have hj : (((j.val : ℤ) - s : ℤ) : ZMod (n + 2 * R)) = j - s := by
    push_cast
    rw [ZMod.natCast_val, ZMod.cast_id]
  have hjlt := ZMod.val_lt j
  rw [← hj, padZero_shift f hf _ (by omega) (by omega)]
  rw [show (j.val : ℤ) - s - R = (j.val - R) - s by ring, ← h]
  unfold padEdgeRow
  split_ifs with c1 c2
  · show g _ = g _
    rw [hz0 ((j.val : ℤ) - R) (by omega), hz0 _ (by simp)]
  · show g _ = g _
    congr 1; omega
  · show g _ = g _
    rw [hz0 ((j.val : ℤ) - R) (by omega), hz0 _ (by omega)]

private theorem selfDiff_pos {n R : ℕ} [NeZero (n + 2 * R)] (p : ℕ) (f : ℤ → ℝ)
    (hf : ∀ k, f k ≠ 0 → 0 ≤ k ∧ k < n) (hne : ∃ k, f k ≠ 0) (a : ℤ) (ha : a ≠ 0) (ha2 : |a| ≤ 2 * R) :
    0 < selfDiff (fun j : ZMod (n + 2 * R) => padZeroRow n R (fun i => f (i : ℕ)) j.val) p a := by
  set F := fun j : ZMod (n + 2 * R) => padZeroRow n R (fun i => f (i : ℕ)) j.val with hF
  -- the displacement may be taken positive
  wlog hpos : 0 < a with H
  · have := H p f hf hne (-a) (by omega) (by rwa [abs_neg]) hF (by omega)
    rwa [Int.cast_neg, selfDiff_neg] at this
  rw [abs_of_pos hpos] at ha2
  -- the last value that is not zero
  obtain ⟨k0, hk0, hmax⟩ : ∃ k0, f k0 ≠ 0 ∧ ∀ k, k0 < k → f k = 0 := by
    obtain ⟨k, hk⟩ := hne
    obtain ⟨m, hm1, hm2⟩ := Int.exists_greatest_of_bdd (P := fun k => f k ≠ 0) ⟨n, fun z hz => (hf z hz).2.le⟩ ⟨k, hk⟩
    refine ⟨m, hm1, fun k hk => ?_⟩
    by_contra hne
    exact absurd (hm2 k hne) (not_le.2 hk)
  obtain ⟨b1, b2⟩ := hf k0 hk0
  refine sum_pos' (fun j _ => by positivity) ⟨((k0 + R + a : ℤ) : ZMod (n + 2 * R)), mem_univ _, ?_⟩
  have e1 : F ((k0 + R + a : ℤ) : ZMod (n + 2 * R)) = 0 := by
    simp only [hF]
    rw [padZero_shift f hf _ (by omega) (by omega)]
    exact hmax _ (by omega)
  have e2 : F (((k0 + R + a : ℤ) : ZMod (n + 2 * R)) - (a : ZMod (n + 2 * R))) = f k0 := by
    simp only [hF]
    rw [← Int.cast_sub, padZero_shift f hf _ (by omega) (by omega)]
    congr 1; ring
  rw [e1, e2, zero_sub, abs_neg]
  exact pow_pos (abs_pos.2 hk0) p

/-- C161 inside the search range: a row that was displaced by a whole number of pixels, smaller than the search range, and that is zero
at both ends, gives that displacement exactly, for every padded fit, every error norm and every precision. -/
theorem C161_sad_shift_partial {n R : ℕ} [NeZero (n + 2 * R)] (p d : ℕ) (hp : 1 ≤ p) (f g : ℤ → ℝ)
    (hf : ∀ k, f k ≠ 0 → 0 ≤ k ∧ k < n) (hg : ∀ k, g k ≠ 0 → 0 < k ∧ k < (n : ℤ) - 1) (hne : ∃ k, f k ≠ 0) (s : ℤ) (hs : |s| < R)
    (h : ∀ k, g k = f (k - s)) :
    fitShiftSad n R true p (fun i => g (i : ℕ)) (fun i => f (i : ℕ)) d = some (s : ℝ) := by
  obtain ⟨hs1, hs2⟩ := abs_lt.1 hs
  set num := 2 * R + 1 with hnum
  have : NeZero num := ⟨by omega⟩
  set F := fun j : ZMod (n + 2 * R) => padZeroRow n R (fun i => f (i : ℕ)) j.val with hF
  set vals : ℕ → ℝ := fun ii => -sadDiff n R p (fun i => g (i : ℕ)) (fun i => f (i : ℕ)) (fftfreq num ii) with hvals
  have hp' : (0 : ℝ) < 1 / p := by
    have : (1 : ℝ) ≤ p := by exact_mod_cast hp
    positivity
  have hD : ∀ t : ℤ, sadDiff n R p (fun i => g (i : ℕ)) (fun i => f (i : ℕ)) t = (selfDiff F p ((t - s : ℤ) : ZMod (n + 2 * R))) ^ ((1 : ℝ) / p) := by
    intro t
    rw [sadDiff_eq p f g hf hg s hs.le h t, Int.cast_sub]
  have hDs : sadDiff n R p (fun i => g (i : ℕ)) (fun i => f (i : ℕ)) s = 0 := by
    rw [hD, sub_self]
    have : selfDiff F p ((0 : ℤ) : ZMod (n + 2 * R)) = 0 := by
      unfold selfDiff
      refine sum_eq_zero fun j _ => ?_
      rw [Int.cast_zero, sub_zero, sub_self, abs_zero, zero_pow (by omega)]
    rw [this, Real.zero_rpow hp'.ne']
  have hDpos : ∀ t : ℤ, t ≠ s → |t| ≤ R → 0 < sadDiff n R p (fun i => g (i : ℕ)) (fun i => f (i : ℕ)) t := by
    intro t ht ht2
    rw [hD]
    refine Real.rpow_pos_of_pos (selfDiff_pos p f hf hne _ (sub_ne_zero.2 ht) ?_) _
    obtain ⟨t1, t2⟩ := abs_le.1 ht2
    rw [abs_le]; constructor <;> omega
  have hfr : ∀ z : ℤ, |z| ≤ R → fftfreq num ((z : ZMod num).val) = z := by
    intro z hz
    obtain ⟨z1, z2⟩ := abs_le.1 hz
    exact fftfreq_val z (by omega) (by omega)
  have hfrR : ∀ i < num, |fftfreq num i| ≤ R ∧ (((fftfreq num i : ℤ) : ZMod num)).val = i := by
    intro i hi
    unfold fftfreq
    split_ifs with c
    · refine ⟨by rw [abs_le]; constructor <;> omega, ?_⟩
      rw [Int.cast_natCast, ZMod.val_natCast_of_lt hi]
    · refine ⟨by rw [abs_le]; constructor <;> omega, ?_⟩
      push_cast
      rw [ZMod.natCast_self, sub_zero, ZMod.val_natCast_of_lt hi]
  set m := ((s : ZMod num)).val with hm
  have hmlt : m < num := ZMod.val_lt _
  have hvm : vals m = 0 := by
    simp only [hvals]
    rw [hm, hfr s hs.le, hDs, neg_zero]
  have hvneg : ∀ i < num, i ≠ m → vals i < 0 := by
    intro i hi him
    simp only [hvals]
    refine neg_neg_of_pos (hDpos _ (fun he => him ?_) (hfrR i hi).1)
    rw [← (hfrR i hi).2, he]
  have harg : argmax vals num = m := by
    refine argmax_unique _ _ _ hmlt (fun i hi => ?_) (fun i hi => ?_)
    · rcases eq_or_ne i m with rfl | hne
      · exact le_rfl
      · rw [hvm]; exact (hvneg i hi hne).le
    · rw [hvm]; exact hvneg i (by omega) (by omega)
  have hidx : ∀ o : ℤ, |s + o| ≤ R → ((((m : ℕ) : ℤ) + o) % (num : ℤ)).toNat = (((s + o : ℤ) : ZMod num)).val := by
    intro o _
    have e : (((s + o : ℤ) : ZMod num)) = (((m : ℤ) + o : ℤ) : ZMod num) := by
      push_cast
      rw [hm, ZMod.natCast_val, ZMod.cast_id]
    have : ((((s + o : ℤ) : ZMod num)).val : ℤ) = ((m : ℤ) + o) % num := by rw [e, ZMod.val_intCast]
    omega
  have hreg : ∀ k : ℕ, k ≤ 2 → peakRegion1d 1 num (fun _ ii => vals ii) true 1 (fun ii => (fftfreq num ii : ℝ)) k 0 =
      (-sadDiff n R p (fun i => g (i : ℕ)) (fun i => f (i : ℕ)) (s + ((k : ℤ) - 1)), ((s + ((k : ℤ) - 1) : ℤ) : ℝ)) := by
    intro k hk
    have hb : |s + ((k : ℤ) - 1)| ≤ R := by rw [abs_le]; constructor <;> omega
    simp only [peakRegion1d, if_true]
    rw [harg, show ((1 : ℕ) : ℤ) = 1 from rfl, hidx _ hb]
    simp only [hvals]
    rw [hfr _ hb]
  have href : refineMax3 (-sadDiff n R p (fun i => g (i : ℕ)) (fun i => f (i : ℕ)) (s - 1)) (-sadDiff n R p (fun i => g (i : ℕ)) (fun i => f (i : ℕ)) s)
      (-sadDiff n R p (fun i => g (i : ℕ)) (fun i => f (i : ℕ)) (s + 1)) d = some 0 := by
    refine refine_symmetric _ _ _ _ ?_ ?_
    · rw [hD, hD, show s - 1 - s = -(s + 1 - s) by ring, Int.cast_neg, selfDiff_neg]
    · rw [hDs, neg_zero]
      exact neg_neg_of_pos (hDpos _ (by omega) (by rw [abs_le]; constructor <;> omega))
  have h0 := hreg 0 (by norm_num)
  have h1 := hreg 1 (by norm_num)
  have h2 := hreg 2 (by norm_num)
  simp only [Nat.cast_zero, Nat.cast_one, Nat.cast_ofNat, zero_sub, sub_self, add_zero] at h0 h1 h2
  rw [show s + -1 = s - 1 by ring] at h0
  rw [show s + ((2 : ℤ) - 1) = s + 1 by ring] at h2
  unfold fitShiftSad
  simp only [if_true]
  rw [← hnum, h0, h1, h2]
  simp only
  rw [href]
  simp

/-- Non-vacuity: a row of 40 pixels with two values that are not zero, displaced by 3, with the default search range. -/
example : fitShiftSad 40 16 true 1 (fun i => (fun k : ℤ => if k = 13 then (1 : ℝ) else if k = 14 then 2 else 0) (i : ℕ))
    (fun i => (fun k : ℤ => if k = 10 then (1 : ℝ) else if k = 11 then 2 else 0) (i : ℕ)) 2 = some ((3 : ℤ) : ℝ) := by
  refine C161_sad_shift_partial (n := 40) (R := 16) 1 2 le_rfl (fun k : ℤ => if k = 10 then (1 : ℝ) else if k = 11 then 2 else 0)
    (fun k : ℤ => if k = 13 then (1 : ℝ) else if k = 14 then 2 else 0) ?_ ?_ ⟨10, by simp⟩ 3 (by norm_num) ?_
  · intro k hk
    by_contra hc
    refine hk ?_
    rw [if_neg (by omega), if_neg (by omega)]
  · intro k hk
    by_contra hc
    refine hk ?_
    push_cast at hc
    rw [if_neg (by omega), if_neg (by omega)]
  · intro k
    split_ifs <;> first | rfl | omega

/-- C161 is violated without `pad_u`, which is the default: no row at all has a result. -/
theorem C161_without_padding_violated : ¬ ∀ (n R : ℕ) [NeZero (n + 2 * R)] (padU : Bool) (p d : ℕ) (f g : ℤ → ℝ) (s : ℤ), 1 ≤ p →
    (∀ k, f k ≠ 0 → 0 ≤ k ∧ k < n) → (∀ k, g k ≠ 0 → 0 < k ∧ k < (n : ℤ) - 1) → (∃ k, f k ≠ 0) → |s| < R → (∀ k, g k = f (k - s)) →
    fitShiftSad n R padU p (fun i => g (i : ℕ)) (fun i => f (i : ℕ)) d = some (s : ℝ) := by
  intro h
  have := h 3 1 false 1 2 (fun k => if k = 1 then 1 else 0) (fun k => if k = 1 then 1 else 0) 0 le_rfl ?_ ?_ ⟨1, by simp⟩ (by norm_num) ?_
  · simp [fitShiftSad] at this
  · intro k hk
    by_contra hc
    exact hk (if_neg (by omega))
  · intro k hk
    by_contra hc
    push_cast at hc
    exact hk (if_neg (by omega))
  · intro k
    simp

/-- C161 is violated at the end of the search range, where the next shift is taken from the other end: the row `0 1 1 0 0`, displaced by
one pixel, with a range of one pixel, does not give one pixel. -/
theorem C161_range_end_violated : ¬ ∀ (n R : ℕ) [NeZero (n + 2 * R)] (p d : ℕ) (f g : ℤ → ℝ) (s : ℤ), 1 ≤ p →
    (∀ k, f k ≠ 0 → 0 ≤ k ∧ k < n) → (∀ k, g k ≠ 0 → 0 < k ∧ k < (n : ℤ) - 1) → (∃ k, f k ≠ 0) → |s| ≤ R → (∀ k, g k = f (k - s)) →
    fitShiftSad n R true p (fun i => g (i : ℕ)) (fun i => f (i : ℕ)) d = some (s : ℝ) := by
  intro h
  set f : ℤ → ℝ := fun k => if k = 1 ∨ k = 2 then 1 else 0 with hfdef
  set g : ℤ → ℝ := fun k => if k = 2 ∨ k = 3 then 1 else 0 with hgdef
  have hf : ∀ k, f k ≠ 0 → 0 ≤ k ∧ k < (5 : ℕ) := by
    intro k hk
    by_contra hc
    push_cast at hc
    exact hk (if_neg (by omega))
  have hg : ∀ k, g k ≠ 0 → 0 < k ∧ k < ((5 : ℕ) : ℤ) - 1 := by
    intro k hk
    by_contra hc
    push_cast at hc
    exact hk (if_neg (by omega))
  have hfg : ∀ k, g k = f (k - 1) := by
    intro k
    simp only [hfdef, hgdef]
    congr 1
    apply propext; omega
  have h1 := h 5 1 1 2 f g 1 le_rfl hf hg ⟨1, by simp [hfdef]⟩ (by norm_num) hfg
  set Fz : ZMod (5 + 2 * 1) → ℤ := fun j => if j.val = 2 ∨ j.val = 3 then 1 else 0 with hFz
  have hpad : ∀ v : ℕ, v < 7 → padZeroRow 5 1 (fun i => f (i : ℕ)) v = ((if v = 2 ∨ v = 3 then 1 else 0 : ℤ) : ℝ) := by
    intro v hv
    interval_cases v <;> simp [padZeroRow, hfdef]
  have hD : ∀ t : ℤ, sadDiff 5 1 1 (fun i => g (i : ℕ)) (fun i => f (i : ℕ)) t =
      ((∑ j, |Fz j - Fz (j - ((t : ZMod (5 + 2 * 1)) - 1))| : ℤ) : ℝ) := by
    intro t
    have e := sadDiff_eq (n := 5) (R := 1) 1 f g hf hg 1 (by norm_num) hfg t
    rw [e]
    simp only [Nat.cast_one, div_one, Real.rpow_one, Int.cast_one]
    unfold selfDiff
    push_cast
    refine sum_congr rfl fun j _ => ?_
    rw [pow_one, hpad _ (ZMod.val_lt j), hpad _ (ZMod.val_lt _)]
  have v0 : sadDiff 5 1 1 (fun i => g (i : ℕ)) (fun i => f (i : ℕ)) 0 = 2 := by
    rw [hD]
    have : (∑ j, |Fz j - Fz (j - (((0 : ℤ) : ZMod (5 + 2 * 1)) - 1))| : ℤ) = 2 := by decide
    rw [this]; norm_num
  have v1 : sadDiff 5 1 1 (fun i => g (i : ℕ)) (fun i => f (i : ℕ)) 1 = 0 := by
    rw [hD]
    have : (∑ j, |Fz j - Fz (j - (((1 : ℤ) : ZMod (5 + 2 * 1)) - 1))| : ℤ) = 0 := by decide
    rw [this]; norm_num
  have v2 : sadDiff 5 1 1 (fun i => g (i : ℕ)) (fun i => f (i : ℕ)) (-1) = 4 := by
    rw [hD]
    have : (∑ j, |Fz j - Fz (j - (((-1 : ℤ) : ZMod (5 + 2 * 1)) - 1))| : ℤ) = 4 := by decide
    rw [this]; norm_num
  have f0 : fftfreq 3 0 = 0 := by decide
  have f1 : fftfreq 3 1 = 1 := by decide
  have f2 : fftfreq 3 2 = -1 := by decide
  have harg : argmax (fun ii => -sadDiff 5 1 1 (fun i => g (i : ℕ)) (fun i => f (i : ℕ)) (fftfreq 3 ii)) 3 = 1 := by
    refine argmax_unique _ _ _ (by norm_num) (fun i hi => ?_) (fun i hi => ?_)
    · interval_cases i <;> simp only [f0, f1, f2, v0, v1, v2] <;> norm_num
    · interval_cases i
      simp only [f0, f1, v0, v1]; norm_num
  have href : refineMax3 (-2) (-0) (-4) 2 = some (around 2 (-1 / 6)) := by
    have hv : (parab3 (-1) 0 1 (-2) (-0) (-4)).vertex = -1 / 6 := by norm_num [parab3, Parab.vertex]
    have ha : (parab3 (-1) 0 1 (-2) (-0) (-4)).a ≠ 0 := by norm_num [parab3]
    have hr := abs_le.1 (around_error 2 (-1 / 6))
    unfold refineMax3
    simp only
    rw [hv, if_pos]
    refine ⟨ha, ?_, ?_⟩ <;> norm_num at hr ⊢ <;> linarith
  have hr := abs_le.1 (around_error 2 (-1 / 6))
  have hreg : ∀ k, peakRegion1d 1 3 (fun _ ii => -sadDiff 5 1 1 (fun i => g (i : ℕ)) (fun i => f (i : ℕ)) (fftfreq 3 ii)) true 1
      (fun ii => (fftfreq 3 ii : ℝ)) k 0 = (-sadDiff 5 1 1 (fun i => g (i : ℕ)) (fun i => f (i : ℕ)) (fftfreq 3 (((1 : ℤ) + ((k : ℤ) - 1)) % 3).toNat),
        (fftfreq 3 (((1 : ℤ) + ((k : ℤ) - 1)) % 3).toNat : ℝ)) := by
    intro k
    simp only [peakRegion1d, if_true]
    rw [harg]
    rfl
  have hk0 : (((1 : ℤ) + (((0 : ℕ) : ℤ) - 1)) % 3).toNat = 0 := by decide
  have hk1 : (((1 : ℤ) + (((1 : ℕ) : ℤ) - 1)) % 3).toNat = 1 := by decide
  have hk2 : (((1 : ℤ) + (((2 : ℕ) : ℤ) - 1)) % 3).toNat = 2 := by decide
  unfold fitShiftSad at h1
  simp only [if_true] at h1
  rw [show 2 * 1 + 1 = 3 from rfl, hreg, hreg, hreg, hk0, hk1, hk2, f0, f1, f2, v0, v1, v2] at h1
  simp only at h1
  rw [href] at h1
  have h2 : (1 : ℝ) + around 2 (-1 / 6) = 1 := by simpa using h1
  norm_num at hr
  linarith

/-! ## C162: pre-alignment by a sinusoid -/

private theorem ofFin_ext {s : ℕ} (F : ℤ → ℝ) (i : ℕ) (hi : i < s) :
    (if h : i < s then (fun k : Fin s => F (k : ℕ)) ⟨i, h⟩ else 0) = F (i : ℕ) := by rw [dif_pos hi]

/-- C162, background: what is given as background is taken off the projection, and what is below it counts as nothing; so adding a constant
to a projection and to its background changes nothing. -/
theorem C162_background {nu : ℕ} (com : Bool) (b c : ℝ) (row : Fin nu → ℝ) :
    preRefPoint com (preRow (some (b + c)) fun i => row i + c) = preRefPoint com (preRow (some b) row) ∧
    preRefPoint com (preRow (some b) fun i => row i + b) = preRefPoint com (preRow none row) ∧
    (∀ i, row i ≤ b → preRow (some b) row i = 0) ∧ (∀ i, b ≤ row i → preRow (some b) row i = row i - b) := by
  refine ⟨?_, ?_, fun i h => max_eq_right (by simpa using h), fun i h => max_eq_left (by simpa using h)⟩
  · congr 1; funext i; unfold preRow; simp only; congr 1; ring
  · congr 1; funext i; unfold preRow; simp only; congr 1; ring

/-- C162, reference points: if the bright object of a projection moves by `t` pixels inside the detector, its reference point moves by
`-t`, with both methods. -/
theorem C162_reference_moves {nu : ℕ} (com : Bool) (f g : ℤ → ℝ) (hf : ∀ k, f k ≠ 0 → 0 ≤ k ∧ k < nu)
    (hg : ∀ k, g k ≠ 0 → 0 ≤ k ∧ k < nu) (t : ℤ) (h : ∀ k, g k = f (k - t)) (hpos : ∃ k, 0 < f k) :
    preRefPoint com (preRow none fun i : Fin nu => g (i : ℕ)) = preRefPoint com (preRow none fun i : Fin nu => f (i : ℕ)) - t := by
  set F : ℤ → ℝ := fun k => max (f k) 0 with hF
  set G : ℤ → ℝ := fun k => max (g k) 0 with hG
  have e1 : (preRow none fun i : Fin nu => g (i : ℕ)) = fun i : Fin nu => G (i : ℕ) := rfl
  have e2 : (preRow none fun i : Fin nu => f (i : ℕ)) = fun i : Fin nu => F (i : ℕ) := rfl
  have hF' : ∀ k, F k ≠ 0 → 0 ≤ k ∧ k < nu := fun k hk => hf k fun h0 => hk (by simp [hF, h0])
  have hG' : ∀ k, G k ≠ 0 → 0 ≤ k ∧ k < nu := fun k hk => hg k fun h0 => hk (by simp [hG, h0])
  have hGF : ∀ k, G k = F (k - t) := fun k => by simp only [hF, hG, h]
  have hFnn : ∀ k, 0 ≤ F k := fun k => le_max_right _ _
  obtain ⟨k1, hk1⟩ := hpos
  have hFk1 : 0 < F k1 := lt_max_of_lt_left hk1
  obtain ⟨b1, b2⟩ := hF' k1 hFk1.ne'
  rw [e1, e2]
  cases com with
  | true =>
    simp only [preRefPoint, if_true]
    rw [C101_com_moves F G hF' hG' t hGF]
    · ring
    · refine (sum_pos' (fun i _ => hFnn _) ⟨⟨k1.toNat, by omega⟩, mem_univ _, ?_⟩).ne'
      have : ((k1.toNat : ℕ) : ℤ) = k1 := Int.toNat_of_nonneg b1
      simpa [this] using hFk1
  | false =>
    simp only [preRefPoint, Bool.false_eq_true, if_false]
    set a := fun i : ℕ => if hi : i < nu then (fun k : Fin nu => F (k : ℕ)) ⟨i, hi⟩ else 0 with ha
    set b := fun i : ℕ => if hi : i < nu then (fun k : Fin nu => G (k : ℕ)) ⟨i, hi⟩ else 0 with hb
    have ha' : ∀ i < nu, a i = F (i : ℕ) := fun i hi => ofFin_ext F i hi
    have hb' : ∀ i < nu, b i = G (i : ℕ) := fun i hi => ofFin_ext G i hi
    obtain ⟨g1, g2, g3⟩ := argmax_spec a nu (by omega)
    set m := argmax a nu with hm
    have hFm : ∀ k : ℤ, F k ≤ F (m : ℕ) := by
      intro k
      rcases eq_or_ne (F k) 0 with h0 | h0
      · rw [h0]; exact hFnn _
      · obtain ⟨c1, c2⟩ := hF' k h0
        have := g2 k.toNat (by omega)
        rwa [ha' _ (by omega), ha' _ g1, Int.toNat_of_nonneg c1] at this
    have hmpos : 0 < F (m : ℕ) := hFk1.trans_le (hFm k1)
    have hFlt : ∀ k : ℤ, k < m → F k < F (m : ℕ) := by
      intro k hk
      rcases lt_or_ge k 0 with hk0 | hk0
      · have : F k = 0 := by
          by_contra hne
          have := (hF' k hne).1
          omega
        rw [this]; exact hmpos
      · have := g3 k.toNat (by omega)
        rwa [ha' _ (by omega), ha' _ g1, Int.toNat_of_nonneg hk0] at this
    have hGm : G ((m : ℤ) + t) = F (m : ℕ) := by rw [hGF]; congr 1; ring
    obtain ⟨c1, c2⟩ := hG' ((m : ℤ) + t) (by rw [hGm]; exact hmpos.ne')
    have hbm : argmax b nu = ((m : ℤ) + t).toNat := by
      have hc : ((((m : ℤ) + t).toNat : ℕ) : ℤ) = m + t := Int.toNat_of_nonneg c1
      refine argmax_unique _ _ _ (by omega) (fun i hi => ?_) (fun i hi => ?_)
      · rw [hb' _ hi, hb' _ (by omega), hc, hGm, hGF]
        exact hFm _
      · rw [hb' _ (by omega), hb' _ (by omega), hc, hGm, hGF]
        exact hFlt _ (by omega)
    rw [hbm]
    have : ((((m : ℤ) + t).toNat : ℕ) : ℝ) = (m : ℝ) + t := by
      have hc : ((((m : ℤ) + t).toNat : ℕ) : ℤ) = m + t := Int.toNat_of_nonneg c1
      exact_mod_cast congrArg (fun z : ℤ => (z : ℝ)) hc
    rw [this]; ring

/-- Non-vacuity: a bright pixel that moves by two. -/
example : preRefPoint (nu := 8) false (preRow none fun i => (fun k : ℤ => if k = 5 then (1 : ℝ) else 0) (i : ℕ)) =
    preRefPoint false (preRow none fun i : Fin 8 => (fun k : ℤ => if k = 3 then (1 : ℝ) else 0) (i : ℕ)) - (2 : ℤ) := by
  refine C162_reference_moves (nu := 8) false (fun k : ℤ => if k = 3 then (1 : ℝ) else 0) (fun k : ℤ => if k = 5 then (1 : ℝ) else 0) ?_ ?_ 2 ?_
    ⟨3, by simp⟩
  · intro k hk
    by_contra hc
    refine hk (if_neg ?_)
    push_cast at hc; omega
  · intro k hk
    by_contra hc
    refine hk (if_neg ?_)
    push_cast at hc; omega
  · intro k
    split_ifs <;> first | rfl | omega

/-- A sine of the angle plus a constant, that vanishes at three different angles, has no constant part. -/
private theorem sine_three {α β γ x1 x2 x3 : ℝ} (h12 : (x1 : Real.Angle) ≠ x2) (h13 : (x1 : Real.Angle) ≠ x3) (h23 : (x2 : Real.Angle) ≠ x3)
    (e1 : α * Real.sin x1 + β * Real.cos x1 + γ = 0) (e2 : α * Real.sin x2 + β * Real.cos x2 + γ = 0)
    (e3 : α * Real.sin x3 + β * Real.cos x3 + γ = 0) : γ = 0 := by
  by_contra hγ
  have hr : α ^ 2 + β ^ 2 ≠ 0 := by
    intro h0
    have ha : α = 0 := by nlinarith [sq_nonneg α, sq_nonneg β]
    have hb : β = 0 := by nlinarith [sq_nonneg α, sq_nonneg β]
    rw [ha, hb] at e1
    exact hγ (by linarith)
  have key : ∀ x y : ℝ, (x : Real.Angle) ≠ y → α * Real.sin x + β * Real.cos x + γ = 0 → α * Real.sin y + β * Real.cos y + γ = 0 →
      α * Real.cos x - β * Real.sin x = -(α * Real.cos y - β * Real.sin y) := by
    intro x y hxy ex ey
    have hsq : (α * Real.cos x - β * Real.sin x) ^ 2 = (α * Real.cos y - β * Real.sin y) ^ 2 := by
      have px := Real.sin_sq_add_cos_sq x
      have py := Real.sin_sq_add_cos_sq y
      have a1 : (α * Real.cos x - β * Real.sin x) ^ 2 = (α ^ 2 + β ^ 2) - γ ^ 2 := by
        have : α * Real.sin x + β * Real.cos x = -γ := by linarith
        have h2 : (α * Real.sin x + β * Real.cos x) ^ 2 = γ ^ 2 := by rw [this]; ring
        linear_combination (α ^ 2 + β ^ 2) * px - h2
      have a2 : (α * Real.cos y - β * Real.sin y) ^ 2 = (α ^ 2 + β ^ 2) - γ ^ 2 := by
        have : α * Real.sin y + β * Real.cos y = -γ := by linarith
        have h2 : (α * Real.sin y + β * Real.cos y) ^ 2 = γ ^ 2 := by rw [this]; ring
        linear_combination (α ^ 2 + β ^ 2) * py - h2
      rw [a1, a2]
    rcases sq_eq_sq_iff_eq_or_eq_neg.1 hsq with h | h
    · exfalso
      refine hxy (Real.Angle.cos_sin_inj ?_ ?_)
      · have : (α ^ 2 + β ^ 2) * (Real.cos x - Real.cos y) = 0 := by linear_combination β * (ex - ey) + α * h
        exact sub_eq_zero.1 ((mul_eq_zero.1 this).resolve_left hr)
      · have : (α ^ 2 + β ^ 2) * (Real.sin x - Real.sin y) = 0 := by linear_combination α * (ex - ey) - β * h
        exact sub_eq_zero.1 ((mul_eq_zero.1 this).resolve_left hr)
    · exact h
  have k12 := key x1 x2 h12 e1 e2
  have k13 := key x1 x3 h13 e1 e3
  have k23 := key x2 x3 h23 e2 e3
  -- all three are zero
  have z1 : α * Real.cos x1 - β * Real.sin x1 = 0 := by linarith
  have z2 : α * Real.cos x2 - β * Real.sin x2 = 0 := by linarith
  refine h12 (Real.Angle.cos_sin_inj ?_ ?_)
  · have : (α ^ 2 + β ^ 2) * (Real.cos x1 - Real.cos x2) = 0 := by linear_combination β * (e1 - e2) + α * (z1 - z2)
    exact sub_eq_zero.1 ((mul_eq_zero.1 this).resolve_left hr)
  · have : (α ^ 2 + β ^ 2) * (Real.sin x1 - Real.sin x2) = 0 := by linear_combination α * (e1 - e2) - β * (z1 - z2)
    exact sub_eq_zero.1 ((mul_eq_zero.1 this).resolve_left hr)

/-- C162, aligned data: if the reference points of the projections lie on a sinusoid around the centre of rotation `B`, and three of the
angles are different directions, every least-squares fit gives no shifts, and the centre `B` rounded. -/
theorem C162_aligned {na : ℕ} (angles ref : Fin na → ℝ) (A P B : ℝ) (href : ∀ i, ref i = A * Real.sin (angles i + P) + B)
    (hang : ∃ i j k, (angles i : Real.Angle) ≠ angles j ∧ (angles i : Real.Angle) ≠ angles k ∧ (angles j : Real.Angle) ≠ angles k)
    (a p b : ℝ) (hfit : IsSinusoidFit angles ref a p b) (maxShift : ℝ) (hmax : 0 ≤ maxShift) (d : ℕ) :
    preFitU angles ref a p b maxShift d = (fun _ => 0, around d B) := by
  have hz : ∀ i, sinusoid (angles i) a p b = ref i := by
    have h1 := hfit A P B
    have h2 : ∑ i, (sinusoid (angles i) A P B - ref i) ^ 2 = 0 := by
      refine sum_eq_zero fun i _ => ?_
      rw [href]; unfold sinusoid; ring
    rw [h2] at h1
    intro i
    have := (sum_eq_zero_iff_of_nonneg fun i _ => sq_nonneg (sinusoid (angles i) a p b - ref i)).1
      (le_antisymm h1 (sum_nonneg fun i _ => sq_nonneg _)) i (mem_univ _)
    exact sub_eq_zero.1 (pow_eq_zero_iff two_ne_zero |>.1 this)
  have hb : b = B := by
    obtain ⟨i, j, k, hij, hik, hjk⟩ := hang
    have e : ∀ i, (a * Real.cos p - A * Real.cos P) * Real.sin (angles i) + (a * Real.sin p - A * Real.sin P) * Real.cos (angles i) + (b - B) = 0 := by
      intro i
      have := hz i
      rw [href] at this
      unfold sinusoid at this
      rw [Real.sin_add, Real.sin_add] at this
      linear_combination this
    exact sub_eq_zero.1 (sine_three hij hik hjk (e i) (e j) (e k))
  unfold preFitU
  refine Prod.ext ?_ (by rw [hb])
  funext i
  simp only
  rw [hz, sub_self]
  unfold filterShift
  rw [abs_zero, if_neg (not_lt.2 hmax), around_zero]

/-- C162, limits: no shift exceeds the largest one that is allowed, but for the rounding. -/
theorem C162_limits {na : ℕ} (angles ref : Fin na → ℝ) (a p b maxShift : ℝ) (hmax : 0 ≤ maxShift) (d : ℕ) (i : Fin na) :
    |(preFitU angles ref a p b maxShift d).1 i| ≤ maxShift + 1 / (2 * 10 ^ d) := by
  unfold preFitU
  simp only
  set x := ref i - sinusoid (angles i) a p b
  have h1 := around_error d (filterShift maxShift x)
  have h2 : |filterShift maxShift x| ≤ maxShift := by
    unfold filterShift
    split_ifs with h
    · simpa using hmax
    · exact not_lt.1 h
  calc |around d (filterShift maxShift x)| = |(around d (filterShift maxShift x) - filterShift maxShift x) + filterShift maxShift x| := by ring_nf
    _ ≤ |around d (filterShift maxShift x) - filterShift maxShift x| + |filterShift maxShift x| := abs_add_le _ _
    _ ≤ _ := by linarith

/-- Non-vacuity: three angles of a scan of half a turn. -/
example : preFitU ![0, 1, 2] (fun i => 3 * Real.sin ((![0, 1, 2] : Fin 3 → ℝ) i + 1) + 1 / 2) 3 1 (1 / 2) 10 2 = (fun _ => 0, around 2 (1 / 2)) := by
  refine C162_aligned _ _ 3 1 (1 / 2) (fun _ => rfl) ⟨0, 1, 2, ?_⟩ 3 1 (1 / 2) ?_ 10 (by norm_num) 2
  · have key : ∀ x y : ℝ, 0 ≤ x → x < y → y ≤ 2 → (x : Real.Angle) ≠ y := by
      intro x y hx hxy hy he
      have := congrArg Real.Angle.cos he
      simp only [Real.Angle.cos_coe] at this
      have h3 := Real.two_le_pi
      exact absurd this (Real.strictAntiOn_cos ⟨hx, by linarith⟩ ⟨by linarith, by linarith⟩ hxy).ne'
    simp only [Matrix.cons_val_zero, Matrix.cons_val_one, Matrix.cons_val]
    exact ⟨key 0 1 (by norm_num) (by norm_num) (by norm_num), key 0 2 (by norm_num) (by norm_num) (by norm_num),
      key 1 2 (by norm_num) (by norm_num) (by norm_num)⟩
  · intro a' p' b'
    rw [sum_eq_zero fun i _ => by unfold sinusoid; ring]
    exact sum_nonneg fun i _ => sq_nonneg _

/-! ## C163: full scans -/

/-- C163 for increasing angles: if every projection of the first half turn has an opposite one, every comparison is between opposite
projections, and every projection of the first half turn is compared once. -/
theorem C163_opposite_pairs_partial (angles : ℕ → ℝ) (na : ℕ) (hinc : ∀ i j, i < j → j < na → angles i < angles j)
    (hopp : ∀ i < na, angles i < angles 0 + Real.pi → ∃ j < na, angles j = angles i + Real.pi) :
    (∀ q ∈ pairs360 angles na, q.1 < na ∧ q.2 < na ∧ angles q.2 = angles q.1 + Real.pi) ∧
      ((pairs360 angles na).map Prod.fst).Nodup ∧ ∀ i < na, angles i < angles 0 + Real.pi → i ∈ (pairs360 angles na).map Prod.fst := by
  set num := ((List.range na).filter fun i => decide (angles i < angles 0 + Real.pi)).length with hnum
  -- the angles below the boundary are the first ones
  have hnumle : num ≤ na := by
    have := List.length_filter_le (fun i => decide (angles i < angles 0 + Real.pi)) (List.range na)
    simpa using this
  have hfirst : ∀ i < na, (i < num ↔ angles i < angles 0 + Real.pi) := by
    have hset : ∀ m ≤ na, ((List.range na).filter fun i => decide (angles i < angles 0 + Real.pi)).length = m ↔
        ∀ i < na, (i < m ↔ angles i < angles 0 + Real.pi) := by
      intro m hm
      have hcard : ((List.range na).filter fun i => decide (angles i < angles 0 + Real.pi)).length =
          ((range na).filter fun i => angles i < angles 0 + Real.pi).card := by
        rfl
      rw [hcard]
      constructor
      · intro hc
        -- a lower set of the range, with m elements
        have hlow : ∀ i j, i < j → j ∈ (range na).filter (fun i => angles i < angles 0 + Real.pi) →
            i ∈ (range na).filter (fun i => angles i < angles 0 + Real.pi) := by
          intro i j hij hj
          rw [mem_filter, mem_range] at hj ⊢
          exact ⟨by omega, (hinc i j hij hj.1).trans hj.2⟩
        intro i hi
        constructor
        · intro him
          by_contra hne
          have hsub : (range na).filter (fun i => angles i < angles 0 + Real.pi) ⊆ range i := by
            intro j hj
            rw [mem_range]
            by_contra hle
            rcases (not_lt.1 hle).lt_or_eq with h | h
            · exact hne (mem_filter.1 (hlow i j h hj)).2
            · subst h; exact hne (mem_filter.1 hj).2
          have := card_le_card hsub
          rw [hc, card_range] at this
          omega
        · intro hlt
          have hsub : range (i + 1) ⊆ (range na).filter (fun i => angles i < angles 0 + Real.pi) := by
            intro j hj
            rw [mem_range] at hj
            rcases (Nat.lt_succ_iff.1 hj).lt_or_eq with h | h
            · exact hlow j i h (mem_filter.2 ⟨mem_range.2 hi, hlt⟩)
            · subst h; exact mem_filter.2 ⟨mem_range.2 hi, hlt⟩
          have := card_le_card hsub
          rw [hc, card_range] at this
          omega
      · intro hiff
        have : (range na).filter (fun i => angles i < angles 0 + Real.pi) = range m := by
          ext i
          rw [mem_filter, mem_range, mem_range]
          constructor
          · rintro ⟨h1, h2⟩; exact (hiff i h1).2 h2
          · intro h; exact ⟨by omega, (hiff i (by omega)).1 h⟩
        rw [this, card_range]
    exact (hset num hnumle).1 rfl
  have hpairs : pairs360 angles na = (List.range num).map fun i => (i, argmin (fun j => |angles j - (angles i + Real.pi)|) na) := rfl
  refine ⟨?_, ?_, ?_⟩
  · intro q hq
    rw [hpairs, List.mem_map] at hq
    obtain ⟨i, hi, rfl⟩ := hq
    rw [List.mem_range] at hi
    obtain ⟨j, hj, hje⟩ := hopp i (by omega) ((hfirst i (by omega)).1 hi)
    obtain ⟨h1, h2, -⟩ := argmin_spec (fun j => |angles j - (angles i + Real.pi)|) na (by omega)
    refine ⟨by simp only; omega, h1, ?_⟩
    have := h2 j hj
    simp only [hje, sub_self, abs_zero] at this
    exact sub_eq_zero.1 (abs_nonpos_iff.1 this)
  · rw [hpairs, List.map_map]
    have : (Prod.fst ∘ fun i => (i, argmin (fun j => |angles j - (angles i + Real.pi)|) na)) = id := rfl
    rw [this, List.map_id]
    exact List.nodup_range
  · intro i hi hlt
    rw [hpairs, List.map_map, List.mem_map]
    exact ⟨i, List.mem_range.2 ((hfirst i hi).2 hlt), rfl⟩

/-- C163 for increasing angles: if opposite projections are mirror images around the centre of rotation (a multiple of half a
pixel from the centre of the detector, the shift being allowed), that centre is returned. -/
theorem C163_centre_partial {n : ℕ} [NeZero n] (hn : 2 ≤ n) (rfft : Bool) (hr : rfft = true → Even n) (angles : ℕ → ℝ) (na : ℕ) (hna : 0 < na)
    (hinc : ∀ i j, i < j → j < na → angles i < angles j)
    (hopp : ∀ i < na, angles i < angles 0 + Real.pi → ∃ j < na, angles j = angles i + Real.pi)
    (rows : ℕ → ZMod n → ℝ) (hp : ∀ i < na, ∀ b, (∀ j, rows i (j + b) = rows i j) → b = 0) (twoC : ℤ) (hc : -(n : ℤ) ≤ 2 * twoC ∧ 2 * twoC < n)
    (hmirror : ∀ i < na, ∀ k < na, angles k = angles i + Real.pi → ∀ j, rows k j = rows i (-1 - j + twoC)) (maxShift : ℝ)
    (hmax : |(twoC : ℝ)| ≤ maxShift) (d : ℕ) :
    fitU360 angles na (fun i k => ((fitShiftU rfft (rows i) (fun j => rows k (-1 - j)) d).map (filterShift maxShift)).getD 0) d =
      around d (-((twoC : ℝ) / 2)) := by
  obtain ⟨h1, -, h3⟩ := C163_opposite_pairs_partial angles na hinc hopp
  have hcors : ∀ q ∈ pairs360 angles na,
      -(((fitShiftU rfft (rows q.1) (fun j => rows q.2 (-1 - j)) d).map (filterShift maxShift)).getD 0) / 2 = -((twoC : ℝ) / 2) := by
    intro q hq
    obtain ⟨a1, a2, a3⟩ := h1 q hq
    have h := C97_centre_of_rotation hn rfft hr (rows q.1) (rows q.2) (hp _ a1) twoC (hmirror _ a1 _ a2 a3) hc maxShift hmax d
    unfold fitU180 at h
    cases hs : fitShiftU rfft (rows q.1) (fun j => rows q.2 (-1 - j)) d with
    | none => rw [hs] at h; simp at h
    | some s =>
      rw [hs] at h
      have h' : -(if maxShift < |s| then 0 else s) / 2 = -((twoC : ℝ) / 2) := by simpa using h
      simpa [filterShift] using h'
  have hne : (pairs360 angles na) ≠ [] := by
    have := h3 0 hna (by linarith [Real.pi_pos])
    intro h0
    rw [h0] at this
    simp at this
  unfold fitU360
  simp only
  congr 1
  rw [List.map_congr_left hcors]
  simp only [List.map_const', List.sum_replicate, List.length_replicate, nsmul_eq_mul]
  have : ((pairs360 angles na).length : ℝ) ≠ 0 := by
    have := List.length_pos_of_ne_nil hne
    positivity
  field_simp

/-- C163 is violated by a full scan whose angles are not in increasing order: projections that are not opposite are compared. -/
theorem C163_angle_order_violated : ¬ ∀ (angles : ℕ → ℝ) (na : ℕ),
    (∀ i < na, angles i < angles 0 + Real.pi → ∃ j < na, angles j = angles i + Real.pi) →
    ∀ q ∈ pairs360 angles na, angles q.2 = angles q.1 + Real.pi := by
  intro h
  have hpi := Real.pi_pos
  set ang : ℕ → ℝ := fun i => ([0, Real.pi, Real.pi / 2, 3 * Real.pi / 2] : List ℝ).getD i 0 with hang
  have a0 : ang 0 = 0 := rfl
  have a1 : ang 1 = Real.pi := rfl
  have a2 : ang 2 = Real.pi / 2 := rfl
  have a3 : ang 3 = 3 * Real.pi / 2 := rfl
  have hopp : ∀ i < 4, ang i < ang 0 + Real.pi → ∃ j < 4, ang j = ang i + Real.pi := by
    intro i hi hlt
    interval_cases i
    · exact ⟨1, by norm_num, by rw [a0, a1]; ring⟩
    · rw [a0, a1] at hlt; linarith
    · exact ⟨3, by norm_num, by rw [a2, a3]; ring⟩
    · rw [a0, a3] at hlt; linarith
  have hq : (1, argmin (fun j => |ang j - (ang 1 + Real.pi)|) 4) ∈ pairs360 ang 4 := by
    unfold pairs360
    simp only [List.mem_map, List.mem_range]
    refine ⟨1, ?_, rfl⟩
    have : (List.range 4).filter (fun i => decide (ang i < ang 0 + Real.pi)) = [0, 2] := by
      rw [show List.range 4 = [0, 1, 2, 3] from rfl]
      rw [List.filter_cons_of_pos (by simp [a0, hpi]), List.filter_cons_of_neg (by simp [a0, a1]),
        List.filter_cons_of_pos (by simp only [a0, a2, zero_add, decide_eq_true_eq]; linarith),
        List.filter_cons_of_neg (by simp only [a0, a3, zero_add, decide_eq_true_eq]; linarith)]
      simp
    rw [this]
    norm_num
  have he := h ang 4 hopp _ hq
  simp only at he
  obtain ⟨hm, -, -⟩ := argmin_spec (fun j => |ang j - (ang 1 + Real.pi)|) 4 (by norm_num)
  generalize argmin (fun j => |ang j - (ang 1 + Real.pi)|) 4 = m at he hm
  rw [a1] at he
  interval_cases m
  · rw [a0] at he; linarith
  · rw [a1] at he; linarith
  · rw [a2] at he; linarith
  · rw [a3] at he; linarith

/-- Non-vacuity of `C163_opposite_pairs_partial`: a full scan of four angles. -/
example : ∀ q ∈ pairs360 (fun i => i * (Real.pi / 2)) 4, (q.2 : ℝ) * (Real.pi / 2) = q.1 * (Real.pi / 2) + Real.pi := by
  have hpi := Real.pi_pos
  intro q hq
  refine ((C163_opposite_pairs_partial (fun i => i * (Real.pi / 2)) 4 ?_ ?_).1 q hq).2.2
  · intro i j hij _
    have : (i : ℝ) < j := by exact_mod_cast hij
    nlinarith
  · intro i hi hlt
    simp only [Nat.cast_zero, zero_mul, zero_add] at hlt
    have : (i : ℝ) < 2 := by nlinarith
    have hi2 : i < 2 := by exact_mod_cast this
    exact ⟨i + 2, by omega, by push_cast; ring⟩

/-! ## C164: drifts -/

/-- C164: with one reference image, or as many as there are images, the drift of every image from its reference is recovered exactly,
in the order of the images; any other number of references is an error. -/
theorem C164_drifts {n : ℕ} [NeZero n] (hn : 2 ≤ n) (rfft : Bool) (hr : rfft = true → Even n) (nimg nref : ℕ) (d : ℕ)
    (refs rows : ℕ → ZMod n → ℝ) :
    (∀ s : ℕ → ℤ, (nref = 1 ∨ nref = nimg) → (∀ i < nimg, ∀ b, (∀ j, rows i (j + b) = rows i j) → b = 0) →
      (∀ i < nimg, ∀ j, refs (if nref = 1 then 0 else i) j = rows i (j - s i)) →
      (∀ i < nimg, -(n : ℤ) ≤ 2 * s i ∧ 2 * s i < n) →
      accumDrifts nimg nref (fun r i => (fitShiftU rfft (refs r) (rows i) d).getD 0) =
        some ((List.range nimg).map fun i => ((s i : ℤ) : ℝ))) ∧
    (nref ≠ 1 → nref ≠ nimg → ∀ find, accumDrifts nimg nref find = none) := by
  constructor
  · intro s hnr hper hsh hb
    unfold accumDrifts
    simp only
    have hlen : nimg = (if nref = 1 then List.replicate nimg 0 else List.range nref).length := by
      split_ifs with h
      · simp
      · simp [hnr.resolve_left h]
    rw [if_pos hlen]
    congr 1
    refine List.map_congr_left fun i hi => ?_
    rw [List.mem_range] at hi
    have hidx : (if nref = 1 then List.replicate nimg 0 else List.range nref).getD i 0 = if nref = 1 then 0 else i := by
      split_ifs with h
      · simp [List.getD_eq_getElem?_getD, List.getElem?_replicate, hi]
      · have := hnr.resolve_left h
        simp [List.getD_eq_getElem?_getD, this, hi]
    rw [hidx, C96_row_shift hn rfft hr _ _ (hper i hi) (s i) (hsh i hi) (hb i hi) d]
    rfl
  · intro h1 h2 find
    unfold accumDrifts
    simp only [h1, if_false, List.length_range]
    rw [if_neg (Ne.symm h2)]

/-- Non-vacuity of the hypotheses on the rows: two images of four pixels with one bright pixel, the second one moved. -/
example : accumDrifts 2 1 (fun r i => (fitShiftU false ((fun _ => fun j : ZMod 4 => if j = 0 then (1 : ℝ) else 0) r)
    ((fun i j => if j = (i : ZMod 4) then (1 : ℝ) else 0) i) 2).getD 0) = some [((0 : ℤ) : ℝ), ((-1 : ℤ) : ℝ)] := by
  refine (C164_drifts (n := 4) (by norm_num) false (by simp) 2 1 2 (fun _ => fun j : ZMod 4 => if j = 0 then (1 : ℝ) else 0)
    (fun i j => if j = (i : ZMod 4) then (1 : ℝ) else 0)).1 (fun i => -(i : ℤ)) (.inl rfl) ?_ ?_ ?_
  · intro i _ b hb
    have := hb (i : ZMod 4)
    simp only [if_true] at this
    by_contra hne
    rw [if_neg (by simpa using hne)] at this
    norm_num at this
  · intro i _ j
    simp
  · intro i hi
    interval_cases i <;> norm_num

end Verif
