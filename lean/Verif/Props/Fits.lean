import Verif.Model.Alignment
import Verif.Props.ConeCalibration

/-!
# Fits: C38 (minima), C39 (ellipses), C40 (order of shifts) and the related violated claims
-/

namespace Verif

open Real

/-! ## Lemmas on parabolas, rounding and `argmin` -/

theorem parab3_interpolates (x0 x1 x2 y0 y1 y2 : ℝ) (h01 : x0 < x1) (h12 : x1 < x2) :
    (parab3 x0 x1 x2 y0 y1 y2).eval x0 = y0 ∧ (parab3 x0 x1 x2 y0 y1 y2).eval x1 = y1 ∧
    (parab3 x0 x1 x2 y0 y1 y2).eval x2 = y2 := by
  have e1 : x1 - x0 ≠ 0 := (sub_pos.2 h01).ne'
  have e2 : x2 - x1 ≠ 0 := (sub_pos.2 h12).ne'
  have e3 : x2 - x0 ≠ 0 := (sub_pos.2 (h01.trans h12)).ne'
  refine ⟨?_, ?_, ?_⟩ <;> simp only [Parab.eval, parab3] <;> field_simp <;> ring

/-- A convex parabola has its minimum at the vertex, with the value of the code. -/
theorem vertex_is_min (p : Parab) (ha : 0 < p.a) (x : ℝ) : p.c + p.vertex * p.b / 2 ≤ p.eval x ∧
    p.eval p.vertex = p.c + p.vertex * p.b / 2 := by
  unfold Parab.eval Parab.vertex
  have h : p.a ≠ 0 := ha.ne'
  constructor
  · have : p.c + p.b * x + p.a * x ^ 2 - (p.c + -p.b / (2 * p.a) * p.b / 2) = p.a * (x + p.b / (2 * p.a)) ^ 2 := by
      field_simp; ring
    have h2 : 0 ≤ p.a * (x + p.b / (2 * p.a)) ^ 2 := by positivity
    linarith
  · field_simp; ring

theorem around_error (d : ℕ) (x : ℝ) : |around d x - x| ≤ 1 / (2 * 10 ^ d) := by
  have h10 : (0 : ℝ) < 10 ^ d := by positivity
  unfold around
  simp only
  have h1 := Int.floor_le (x * 10 ^ d)
  have h2 := Int.lt_floor_add_one (x * 10 ^ d)
  have key : ∀ r : ℤ, |(r : ℝ) - x * 10 ^ d| ≤ 1 / 2 → |(r : ℝ) / 10 ^ d - x| ≤ 1 / (2 * 10 ^ d) := by
    intro r hr
    have : (r : ℝ) / 10 ^ d - x = (r - x * 10 ^ d) / 10 ^ d := by field_simp
    rw [this, abs_div, abs_of_pos h10, div_le_div_iff₀ h10 (by positivity)]
    nlinarith
  apply key
  split_ifs with c1 c2 c3
  · rw [abs_le]; constructor <;> linarith
  · rw [abs_le]; push_cast; constructor <;> linarith
  · rw [abs_le]; constructor <;> linarith
  · rw [abs_le]; push_cast; constructor <;> linarith

/-- The first `n` values: `argmin` is in range and smallest, and values before it are larger. -/
theorem argmin_spec (f : ℕ → ℝ) (n : ℕ) (hn : 0 < n) :
    argmin f n < n ∧ (∀ i < n, f (argmin f n) ≤ f i) ∧ ∀ i < argmin f n, f (argmin f n) < f i := by
  have : ∀ k, let m := (List.range k).foldl (fun m i => if f i < f m then i else m) 0
      (m < k ∨ m = 0) ∧ (∀ i < k, f m ≤ f i) ∧ ∀ i < m, f m < f i := by
    intro k
    induction k with
    | zero => simp
    | succ k ih =>
      rw [List.range_succ, List.foldl_append]
      simp only [List.foldl_cons, List.foldl_nil] at ih ⊢
      generalize (List.range k).foldl (fun m i => if f i < f m then i else m) 0 = m at ih ⊢
      obtain ⟨h1, h2, h3⟩ := ih
      split_ifs with h
      · refine ⟨Or.inl (Nat.lt_succ_self k), ?_, ?_⟩
        · intro i hi
          rcases Nat.lt_succ_iff_lt_or_eq.1 hi with h' | rfl
          · exact (h.le).trans (h2 i h')
          · exact le_rfl
        · intro i hi
          exact lt_of_lt_of_le h (h2 i hi)
      · refine ⟨?_, ?_, h3⟩
        · rcases h1 with h1 | h1
          · exact Or.inl (by omega)
          · exact Or.inr h1
        · intro i hi
          rcases Nat.lt_succ_iff_lt_or_eq.1 hi with h' | rfl
          · exact h2 i h'
          · exact not_lt.1 h
  obtain ⟨h1, h2, h3⟩ := this n
  refine ⟨?_, h2, h3⟩
  rcases h1 with h | h
  · exact h
  · unfold argmin; rw [h]; exact hn

theorem fitStart_spec (f : ℕ → ℝ) (n : ℕ) (hn : 3 ≤ n) :
    fitStart f n + 2 < n ∧ fitStart f n ≤ argmin f n ∧ argmin f n ≤ fitStart f n + 2 ∧
    (0 < argmin f n → argmin f n < n - 1 → argmin f n = fitStart f n + 1) := by
  have := (argmin_spec f n (by omega)).1
  unfold fitStart
  simp only
  split_ifs <;> omega

/-! ## C38 -/

/-- The abscissae on which the fit works are strictly increasing. -/
def GoodScale (sc : FitScale) (x : ℕ → ℝ) (n : ℕ) : Prop :=
  (∀ i j, i < j → j < n → x i < x j) ∧ (sc = .log → 0 < x 0)

theorem toFit_lt (sc : FitScale) (x : ℕ → ℝ) (n : ℕ) (h : GoodScale sc x n) (i j : ℕ) (hij : i < j) (hj : j < n) :
    sc.toFit (x i) < sc.toFit (x j) := by
  cases sc with
  | linear => exact h.1 i j hij hj
  | log =>
    have h0 : 0 < x i := by
      have := h.2 rfl
      rcases Nat.eq_zero_or_pos i with h' | h'
      · rw [h']; exact this
      · exact this.trans (h.1 0 i h' (by omega))
    exact Real.logb_lt_logb (by norm_num) h0 (h.1 i j hij hj)

theorem fromFit_toFit (sc : FitScale) (x : ℝ) (h : sc = .log → 0 < x) : sc.fromFit (sc.toFit x) = x := by
  cases sc with
  | linear => rfl
  | log => exact Real.rpow_logb (by norm_num) (by norm_num) (h rfl)

theorem toFit_fromFit (sc : FitScale) (x : ℝ) : sc.toFit (sc.fromFit x) = x := by
  cases sc with
  | linear => rfl
  | log => exact Real.logb_rpow (by norm_num) (by norm_num)

theorem fromFit_mono (sc : FitScale) (x y : ℝ) (h : x ≤ y) : sc.fromFit x ≤ sc.fromFit y := by
  cases sc with
  | linear => exact h
  | log => exact Real.rpow_le_rpow_of_exponent_le (by norm_num) h

/-- **C38.** `fit_func_min`, for any strictly increasing parameter values (positive for the logarithmic scale): there is one parabola,
in the fitting scale, through the three samples around the sampled minimum (the three first or last ones if it is at an end); the
result is either the sampled minimum, or the position, inside the range of the parameters, and value of the minimum of that
parabola, not above the sampled minimum. -/
theorem C38_fit_func_min (sc : FitScale) (x f : ℕ → ℝ) (n : ℕ) (hn : 3 ≤ n) (hx : GoodScale sc x n) :
    ∃ (p : Parab) (i : ℕ) (r : ℝ × ℝ), fitFuncMin sc x n f n = some r ∧
      i + 2 < n ∧ i ≤ argmin f n ∧ argmin f n ≤ i + 2 ∧
      (∀ j, i ≤ j → j ≤ i + 2 → p.eval (sc.toFit (x j)) = f j) ∧
      ((r = (x (argmin f n), f (argmin f n))) ∨
        (x 0 ≤ r.1 ∧ r.1 ≤ x (n - 1) ∧ p.eval (sc.toFit r.1) = r.2 ∧ (∀ t, r.2 ≤ p.eval t) ∧ r.2 ≤ f (argmin f n))) := by
  obtain ⟨s1, s2, s3, _⟩ := fitStart_spec f n hn
  obtain ⟨i0, i1, i2⟩ := parab3_interpolates (sc.toFit (x (fitStart f n))) (sc.toFit (x (fitStart f n + 1)))
    (sc.toFit (x (fitStart f n + 2))) (f (fitStart f n)) (f (fitStart f n + 1)) (f (fitStart f n + 2))
    (toFit_lt sc x n hx _ _ (by omega) (by omega)) (toFit_lt sc x n hx _ _ (by omega) (by omega))
  have hint : ∀ j, fitStart f n ≤ j → j ≤ fitStart f n + 2 → (fittedParab sc x f n).eval (sc.toFit (x j)) = f j := by
    intro j h1 h2
    have : j = fitStart f n ∨ j = fitStart f n + 1 ∨ j = fitStart f n + 2 := by omega
    rcases this with rfl | rfl | rfl
    · exact i0
    · exact i1
    · exact i2
  unfold fitFuncMin
  rw [if_neg (by omega)]
  simp only
  refine ⟨fittedParab sc x f n, fitStart f n, ?_⟩
  split_ifs with ha hr
  · exact ⟨_, rfl, s1, s2, s3, hint, Or.inl rfl⟩
  · exact ⟨_, rfl, s1, s2, s3, hint, Or.inl rfl⟩
  · push Not at ha hr
    refine ⟨_, rfl, s1, s2, s3, hint, Or.inr ⟨hr.1, hr.2, ?_, ?_, ?_⟩⟩
    · rw [toFit_fromFit]; exact (vertex_is_min _ ha 0).2
    · intro t; exact (vertex_is_min _ ha t).1
    · have := (vertex_is_min (fittedParab sc x f n) ha (sc.toFit (x (argmin f n)))).1
      rw [hint _ s2 s3] at this
      exact this

/-- **C38.** If the sampled minimum is inside and not all the three samples are equal, the fit is not given up: the result is the
parabola's minimum, and it lies between the two neighbours of the sampled minimum. -/
theorem C38_interior_minimum (sc : FitScale) (x f : ℕ → ℝ) (n : ℕ) (hn : 3 ≤ n) (hx : GoodScale sc x n)
    (h0 : 0 < argmin f n) (h1 : argmin f n < n - 1) :
    ∃ p : Parab, ∃ r, fitFuncMin sc x n f n = some r ∧
      p.eval (sc.toFit (x (argmin f n - 1))) = f (argmin f n - 1) ∧ p.eval (sc.toFit (x (argmin f n))) = f (argmin f n) ∧
      p.eval (sc.toFit (x (argmin f n + 1))) = f (argmin f n + 1) ∧
      p.eval (sc.toFit r.1) = r.2 ∧ (∀ t, r.2 ≤ p.eval t) ∧ x (argmin f n - 1) ≤ r.1 ∧ r.1 ≤ x (argmin f n + 1) := by
  obtain ⟨s1, s2, s3, s4⟩ := fitStart_spec f n hn
  have hm := s4 h0 h1
  obtain ⟨m, hmdef⟩ : ∃ m, m = fitStart f n := ⟨_, rfl⟩
  have hsp := argmin_spec f n (by omega)
  rw [hm, ← hmdef] at hsp ⊢
  have hlt : f (m + 1) < f m := hsp.2.2 m (by omega)
  have hle : f (m + 1) ≤ f (m + 2) := hsp.2.1 _ (by omega)
  have l01 := toFit_lt sc x n hx m (m + 1) (by omega) (by omega)
  have l12 := toFit_lt sc x n hx (m + 1) (m + 2) (by omega) (by omega)
  obtain ⟨i0, i1, i2⟩ := parab3_interpolates _ _ _ (f m) (f (m + 1)) (f (m + 2)) l01 l12
  have hpar : fittedParab sc x f n = parab3 (sc.toFit (x m)) (sc.toFit (x (m + 1))) (sc.toFit (x (m + 2))) (f m) (f (m + 1))
      (f (m + 2)) := by
    unfold fittedParab; rw [← hmdef]
  have hx0 : sc = .log → 0 < x m := by
    intro hsc
    rcases Nat.eq_zero_or_pos m with h' | h'
    · rw [h']; exact hx.2 hsc
    · exact (hx.2 hsc).trans (hx.1 0 m h' (by omega))
  have hx2 : sc = .log → 0 < x (m + 2) := fun hsc => (hx0 hsc).trans (hx.1 m (m + 2) (by omega) (by omega))
  -- convexity and position of the vertex
  have hpos : 0 < (fittedParab sc x f n).a ∧ sc.toFit (x m) ≤ (fittedParab sc x f n).vertex ∧
      (fittedParab sc x f n).vertex ≤ sc.toFit (x (m + 2)) := by
    rw [hpar]
    generalize sc.toFit (x m) = a0 at *
    generalize sc.toFit (x (m + 1)) = a1 at *
    generalize sc.toFit (x (m + 2)) = a2 at *
    have p1 : 0 < a1 - a0 := sub_pos.2 l01
    have p2 : 0 < a2 - a1 := sub_pos.2 l12
    have hd1 : (f (m + 1) - f m) / (a1 - a0) < 0 := div_neg_of_neg_of_pos (by linarith) p1
    have hd2 : 0 ≤ (f (m + 2) - f (m + 1)) / (a2 - a1) := div_nonneg (by linarith) p2.le
    have ha : 0 < (parab3 a0 a1 a2 (f m) (f (m + 1)) (f (m + 2))).a := by
      unfold parab3; simp only
      exact div_pos (by linarith) (by linarith)
    refine ⟨ha, ?_⟩
    have hb : (parab3 a0 a1 a2 (f m) (f (m + 1)) (f (m + 2))).b =
        (f (m + 1) - f m) / (a1 - a0) - (parab3 a0 a1 a2 (f m) (f (m + 1)) (f (m + 2))).a * (a0 + a1) := rfl
    have haa : (parab3 a0 a1 a2 (f m) (f (m + 1)) (f (m + 2))).a * (a2 - a0) =
        (f (m + 2) - f (m + 1)) / (a2 - a1) - (f (m + 1) - f m) / (a1 - a0) := by
      unfold parab3; simp only
      rw [div_mul_cancel₀]
      linarith
    unfold Parab.vertex
    generalize (parab3 a0 a1 a2 (f m) (f (m + 1)) (f (m + 2))).a = A at *
    generalize (f (m + 1) - f m) / (a1 - a0) = d1 at *
    generalize (f (m + 2) - f (m + 1)) / (a2 - a1) = d2 at *
    rw [hb]
    constructor
    · rw [le_div_iff₀ (by linarith)]
      nlinarith
    · rw [div_le_iff₀ (by linarith)]
      nlinarith
  obtain ⟨ha, hv1, hv2⟩ := hpos
  have hr1 : x m ≤ sc.fromFit (fittedParab sc x f n).vertex := by
    have := fromFit_mono sc _ _ hv1
    rwa [fromFit_toFit sc _ hx0] at this
  have hr2 : sc.fromFit (fittedParab sc x f n).vertex ≤ x (m + 2) := by
    have := fromFit_mono sc _ _ hv2
    rwa [fromFit_toFit sc _ hx2] at this
  have hlo : x 0 ≤ x m := by
    rcases Nat.eq_zero_or_pos m with h' | h'
    · rw [h']
    · exact (hx.1 0 m h' (by omega)).le
  have hhi : x (m + 2) ≤ x (n - 1) := by
    rcases Nat.lt_or_ge (m + 2) (n - 1) with h' | h'
    · exact (hx.1 _ _ h' (by omega)).le
    · rw [show m + 2 = n - 1 by omega]
  refine ⟨fittedParab sc x f n, (sc.fromFit (fittedParab sc x f n).vertex,
    (fittedParab sc x f n).c + (fittedParab sc x f n).vertex * (fittedParab sc x f n).b / 2), ?_, ?_, ?_, ?_, ?_, ?_, hr1, hr2⟩
  · unfold fitFuncMin
    rw [if_neg (by omega)]
    simp only
    rw [if_neg (not_le.2 ha), if_neg (by push Not; constructor <;> linarith)]
  · rw [hpar]; exact i0
  · rw [hpar]; exact i1
  · rw [hpar]; exact i2
  · rw [toFit_fromFit]; exact (vertex_is_min _ ha 0).2
  · intro t; exact (vertex_is_min _ ha t).1

/-- **C38.** Fewer than three values, or different numbers of values, are rejected. -/
theorem C38_bad_lengths (sc : FitScale) (x f : ℕ → ℝ) (nx nf : ℕ) (h : nx < 3 ∨ nf < 3 ∨ nx ≠ nf) :
    fitFuncMin sc x nx f nf = none := by
  unfold fitFuncMin; rw [if_pos h]

/-- **C38.** Sub-pixel refinement of a peak: if the middle of three samples is not below its neighbours and above one of them, the
refined position is the vertex of the parabola through the samples, within half a pixel (plus the rounding); if it is refused
(`ValueError`) the samples have no such peak. -/
theorem C38_refine_max (y0 y1 y2 : ℝ) (d : ℕ) (hd : 1 ≤ d) (h0 : y0 ≤ y1) (h2 : y2 ≤ y1) (hne : y0 < y1 ∨ y2 < y1) :
    ∃ (p : Parab) (v r : ℝ), p.eval (-1) = y0 ∧ p.eval 0 = y1 ∧ p.eval 1 = y2 ∧ (∀ t, p.eval t ≤ p.eval v) ∧ |v| ≤ 1 / 2 ∧
      refineMax3 y0 y1 y2 d = some r ∧ |r - v| ≤ 1 / (2 * 10 ^ d) := by
  obtain ⟨i0, i1, i2⟩ := parab3_interpolates (-1) 0 1 y0 y1 y2 (by norm_num) (by norm_num)
  have ha : (parab3 (-1) 0 1 y0 y1 y2).a = (y2 - 2 * y1 + y0) / 2 := by unfold parab3; simp only; ring
  have hb : (parab3 (-1) 0 1 y0 y1 y2).b = (y2 - y0) / 2 := by unfold parab3; simp only; ring
  have hneg : y2 - 2 * y1 + y0 < 0 := by rcases hne with h | h <;> linarith
  have hv : (parab3 (-1) 0 1 y0 y1 y2).vertex = -(y2 - y0) / (2 * (y2 - 2 * y1 + y0)) := by
    unfold Parab.vertex; rw [ha, hb]; field_simp
  have hvb : |(parab3 (-1) 0 1 y0 y1 y2).vertex| ≤ 1 / 2 := by
    rw [hv, abs_div, abs_neg, abs_mul, abs_of_neg hneg, abs_two, div_le_div_iff₀ (by linarith) (by norm_num)]
    rcases abs_cases (y2 - y0) with ⟨h, _⟩ | ⟨h, _⟩ <;> rw [h] <;> linarith
  have herr := around_error d (parab3 (-1) 0 1 y0 y1 y2).vertex
  have h10 : (10 : ℝ) ≤ 10 ^ d := by
    calc (10 : ℝ) = 10 ^ 1 := by norm_num
      _ ≤ 10 ^ d := pow_le_pow_right₀ (by norm_num) hd
  have hsmall : 1 / (2 * 10 ^ d) ≤ (1 : ℝ) / 20 := by
    apply div_le_div_of_nonneg_left (by norm_num) (by norm_num) (by linarith)
  rw [abs_le] at herr hvb
  refine ⟨parab3 (-1) 0 1 y0 y1 y2, (parab3 (-1) 0 1 y0 y1 y2).vertex, around d (parab3 (-1) 0 1 y0 y1 y2).vertex, i0, i1, i2,
    ?_, abs_le.2 hvb, ?_, abs_le.2 herr⟩
  · intro t
    have hA : (parab3 (-1) 0 1 y0 y1 y2).a < 0 := by rw [ha]; linarith
    generalize parab3 (-1) 0 1 y0 y1 y2 = p at *
    unfold Parab.eval Parab.vertex
    have h : p.a ≠ 0 := hA.ne
    have : p.c + p.b * (-p.b / (2 * p.a)) + p.a * (-p.b / (2 * p.a)) ^ 2 - (p.c + p.b * t + p.a * t ^ 2) =
        -p.a * (t + p.b / (2 * p.a)) ^ 2 := by field_simp; ring
    have h2 : 0 ≤ -p.a * (t + p.b / (2 * p.a)) ^ 2 := mul_nonneg (by linarith) (sq_nonneg _)
    linarith
  · unfold refineMax3
    simp only
    rw [if_pos ⟨by rw [ha]; exact (by linarith : (y2 - 2 * y1 + y0) / 2 < 0).ne, by linarith, by linarith⟩]

/-- Non-vacuity of C38: samples with an inner minimum, on both scales; a peak. -/
example : GoodScale .log (fun i => (i : ℝ) + 1) 4 ∧ GoodScale .linear (fun i => (i : ℝ)) 4 := by
  constructor
  · refine ⟨fun i j h _ => ?_, fun _ => by simp⟩
    have : (i : ℝ) < j := by exact_mod_cast h
    linarith
  · exact ⟨fun i j h _ => by show (i : ℝ) < j; exact_mod_cast h, fun h => by cases h⟩

example : argmin (fun i => if i = 1 then -1 else (i : ℝ)) 3 = 1 := by
  unfold argmin
  simp [List.range_succ]
  norm_num

/-- **C91 (violated).** `fit_parabola_min` returns a value not above the sampled minimum: its rounding to two decimals can do
that, for costs that are small numbers. -/
theorem C91_rounded_value_violated :
    ¬ ∀ (x f : ℕ → ℝ) (n : ℕ) (r : ℝ × ℝ), 3 ≤ n → GoodScale .linear x n → fitParabolaMin .linear x n f n 2 = some r →
      r.2 ≤ f (argmin f n) := by
  intro h
  have hx : GoodScale .linear (fun i => (i : ℝ)) 3 := ⟨fun i j h _ => by show (i : ℝ) < j; exact_mod_cast h, fun h => by cases h⟩
  let f : ℕ → ℝ := fun i => if i = 1 then 6 / 1000 else 8 / 1000
  have ham : argmin f 3 = 1 := by
    unfold argmin
    simp [List.range_succ, f]
    norm_num
  have hst : fitStart f 3 = 0 := by unfold fitStart; rw [ham]; norm_num
  have hp : fittedParab .linear (fun i => (i : ℝ)) f 3 = ⟨8 / 1000, -4 / 1000, 2 / 1000⟩ := by
    unfold fittedParab
    rw [hst]
    simp only [FitScale.toFit, f, parab3]
    norm_num
  have hv : (⟨8 / 1000, -4 / 1000, 2 / 1000⟩ : Parab).vertex = 1 := by unfold Parab.vertex; norm_num
  have r1 : around 2 1 = 1 := by
    unfold around
    have : ⌊(1 : ℝ) * 10 ^ 2⌋ = 100 := by
      rw [show (1 : ℝ) * 10 ^ 2 = ((100 : ℤ) : ℝ) by norm_num, Int.floor_intCast]
    simp only [this]; norm_num
  have r2 : around 2 (6 / 1000) = 1 / 100 := by
    unfold around
    have : ⌊(6 / 1000 : ℝ) * 10 ^ 2⌋ = 0 := by rw [Int.floor_eq_iff]; norm_num
    simp only [this]; norm_num
  have hval : (8 / 1000 : ℝ) + 1 * (-4 / 1000) / 2 = 6 / 1000 := by norm_num
  have := h (fun i => (i : ℝ)) f 3 (1, 1 / 100) le_rfl hx (by
    unfold fitParabolaMin
    rw [if_neg (by norm_num)]
    simp only [hp, hv, r1, hval, r2, FitScale.fromFit]
    norm_num)
  rw [ham] at this
  simp only [f, if_true] at this
  norm_num at this

/-- **C91 (partial).** What is true: position (in the scale of the fit) and value are those of the parabola's minimum, up to half
of a unit of the last decimal, and the position is in the range; or the sampled minimum is returned. -/
theorem C91_rounded_value_partial (sc : FitScale) (x f : ℕ → ℝ) (n d : ℕ) (hn : 3 ≤ n) (hx : GoodScale sc x n) :
    ∃ (p : Parab) (i : ℕ) (r : ℝ × ℝ), fitParabolaMin sc x n f n d = some r ∧
      i + 2 < n ∧ i ≤ argmin f n ∧ argmin f n ≤ i + 2 ∧
      (∀ j, i ≤ j → j ≤ i + 2 → p.eval (sc.toFit (x j)) = f j) ∧
      ((r = (x (argmin f n), f (argmin f n))) ∨
        (x 0 ≤ r.1 ∧ r.1 ≤ x (n - 1) ∧ ∃ t, (∀ s, p.eval t ≤ p.eval s) ∧ |sc.toFit r.1 - t| ≤ 1 / (2 * 10 ^ d) ∧
          |r.2 - p.eval t| ≤ 1 / (2 * 10 ^ d))) := by
  obtain ⟨s1, s2, s3, _⟩ := fitStart_spec f n hn
  obtain ⟨i0, i1, i2⟩ := parab3_interpolates (sc.toFit (x (fitStart f n))) (sc.toFit (x (fitStart f n + 1)))
    (sc.toFit (x (fitStart f n + 2))) (f (fitStart f n)) (f (fitStart f n + 1)) (f (fitStart f n + 2))
    (toFit_lt sc x n hx _ _ (by omega) (by omega)) (toFit_lt sc x n hx _ _ (by omega) (by omega))
  have hint : ∀ j, fitStart f n ≤ j → j ≤ fitStart f n + 2 → (fittedParab sc x f n).eval (sc.toFit (x j)) = f j := by
    intro j h1 h2
    have : j = fitStart f n ∨ j = fitStart f n + 1 ∨ j = fitStart f n + 2 := by omega
    rcases this with rfl | rfl | rfl
    · exact i0
    · exact i1
    · exact i2
  unfold fitParabolaMin
  rw [if_neg (by omega)]
  simp only
  refine ⟨fittedParab sc x f n, fitStart f n, ?_⟩
  split_ifs with ha hr
  · exact ⟨_, rfl, s1, s2, s3, hint, Or.inl rfl⟩
  · exact ⟨_, rfl, s1, s2, s3, hint, Or.inl rfl⟩
  · push Not at ha hr
    refine ⟨_, rfl, s1, s2, s3, hint, Or.inr ⟨hr.1, hr.2, (fittedParab sc x f n).vertex, ?_, ?_, ?_⟩⟩
    · intro t; rw [(vertex_is_min _ ha 0).2]; exact (vertex_is_min _ ha t).1
    · rw [toFit_fromFit]; exact around_error _ _
    · rw [(vertex_is_min _ ha 0).2]; exact around_error _ _

/-- **C92 (violated).** The minimum is fitted whatever the order of the parameters: for decreasing values the fitted minimum is
always taken as outside of the range, and the sampled one returned. -/
theorem C92_decreasing_parameters_violated :
    ¬ ∀ (x f : ℕ → ℝ) (n : ℕ), 3 ≤ n → (∀ i j, i < j → j < n → x j < x i) → 0 < argmin f n → argmin f n < n - 1 →
      ∃ p : Parab, ∃ r, fitFuncMin .linear x n f n = some r ∧
        (∀ j, argmin f n - 1 ≤ j → j ≤ argmin f n + 1 → p.eval (x j) = f j) ∧ p.eval r.1 = r.2 ∧ ∀ t, r.2 ≤ p.eval t := by
  intro h
  let f : ℕ → ℝ := fun i => if i = 0 then 4 else if i = 1 then 0 else 1
  let x : ℕ → ℝ := fun i => -(i : ℝ)
  have ham : argmin f 3 = 1 := by
    unfold argmin
    simp [List.range_succ, f]
  obtain ⟨p, r, hr, hp, h1, h2⟩ := h x f 3 le_rfl (fun i j h _ => by
    have : (i : ℝ) < j := by exact_mod_cast h
    simp only [x]; linarith) (by rw [ham]; norm_num) (by rw [ham]; norm_num)
  rw [ham] at hp
  have e0 := hp 0 (by norm_num) (by norm_num)
  have e1 := hp 1 (by norm_num) (by norm_num)
  have e2 := hp 2 (by norm_num) (by norm_num)
  have hfall : r = (-1, 0) := by
    unfold fitFuncMin at hr
    rw [if_neg (by norm_num)] at hr
    simp only [ham] at hr
    split_ifs at hr with c1 c2
    · have := Option.some.inj hr
      rw [← this]; simp [x, f]
    · have := Option.some.inj hr
      rw [← this]; simp [x, f]
    · exfalso
      apply c2
      simp only [FitScale.fromFit, x]
      by_contra hc
      push Not at hc
      norm_num at hc
      linarith [hc.1, hc.2]
  rw [hfall] at h2
  simp only [Parab.eval, x, f] at e0 e1 e2 h2
  norm_num at e0 e1 e2
  have := h2 (-(13 / 10))
  nlinarith

/-- **C92 (partial).** What is true: for decreasing parameter values the sampled minimum is returned, with its value. -/
theorem C92_decreasing_parameters_partial (sc : FitScale) (x f : ℕ → ℝ) (n : ℕ) (hn : 3 ≤ n)
    (hx : ∀ i j, i < j → j < n → x j < x i) : fitFuncMin sc x n f n = some (x (argmin f n), f (argmin f n)) := by
  unfold fitFuncMin
  rw [if_neg (by omega)]
  simp only
  split_ifs with c1 c2
  · rfl
  · rfl
  · exfalso
    push Not at c2
    have := hx 0 (n - 1) (by omega) (by omega)
    linarith [c2.1, c2.2]

end Verif
