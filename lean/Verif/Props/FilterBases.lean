import Mathlib.Data.List.GetD
import Verif.Props.Filters

/-!
# Bases of filters (C52, C114) and data-dependent filters (C115, C116)
-/

namespace Verif

/-! ## Windows -/

/-- Consecutive windows of positive sizes from `p`, all of which start below `M`, up to a position not below `M`. -/
def Windows (M : ℕ) : ℕ → List (ℕ × ℕ) → Prop
  | p, [] => M ≤ p
  | p, w :: t => w.1 = p ∧ 0 < w.2 ∧ p < M ∧ Windows M (p + w.2) t

/-- Where the last window ends. -/
def windowsEnd : ℕ → List (ℕ × ℕ) → ℕ
  | p, [] => p
  | p, w :: t => windowsEnd (p + w.2) t

theorem nextWindow_pos (type : BinningType) (start : Option ℕ) (pos size : ℕ) (h : type ≠ .invalid ∨ start = none) (hs : 0 < size) :
    ∃ size', nextWindow type start pos size = some size' ∧ 0 < size' := by
  unfold nextWindow
  cases start with
  | none => exact ⟨size, rfl, hs⟩
  | some s =>
    simp only
    split_ifs
    · cases type with
      | exponential => exact ⟨_, rfl, by omega⟩
      | incremental => exact ⟨_, rfl, by omega⟩
      | custom => exact ⟨_, rfl, by omega⟩
      | invalid => simp at h
    · exact ⟨size, rfl, hs⟩

theorem basisLoop_spec (type : BinningType) (start : Option ℕ) (M : ℕ) (h : type ≠ .invalid ∨ start = none) :
    ∀ (k pos size : ℕ), 0 < size → M ≤ pos + k → ∃ w, Windows M pos w ∧
      ∀ fuel acc, k ≤ fuel → basisLoop type start M fuel pos size acc = .windows (acc.reverse ++ w) := by
  intro k
  induction k with
  | zero =>
    intro pos size _ hM
    have hM' : M ≤ pos := by omega
    refine ⟨[], hM', fun fuel acc _ => ?_⟩
    unfold basisLoop
    rw [if_pos hM', List.append_nil]
  | succ k ih =>
    intro pos size hs hM
    by_cases hp : M ≤ pos
    · refine ⟨[], hp, fun fuel acc _ => ?_⟩
      unfold basisLoop
      rw [if_pos hp, List.append_nil]
    · obtain ⟨size', hn, hs'⟩ := nextWindow_pos type start (pos + size) size h hs
      obtain ⟨w, hw, he⟩ := ih (pos + size) size' hs' (by omega)
      refine ⟨(pos, size) :: w, ⟨rfl, hs, by omega, hw⟩, fun fuel acc hf => ?_⟩
      cases fuel with
      | zero => omega
      | succ fuel =>
        rw [basisLoop, if_neg hp]
        simp only [hn]
        rw [he fuel _ (by omega)]
        simp

/-- Each position from `p` to the end is in exactly one window; the others are in none. -/
theorem windows_partition (M : ℕ) : ∀ (w : List (ℕ × ℕ)) (p : ℕ), Windows M p w → p ≤ windowsEnd p w ∧ M ≤ windowsEnd p w ∧
    (∀ x, p ≤ x → x < windowsEnd p w → ∃ k, k < w.length ∧ (w.getD k (0, 0)).1 ≤ x ∧ x < (w.getD k (0, 0)).1 + (w.getD k (0, 0)).2) ∧
    (∀ k l x, k < w.length → l < w.length → (w.getD k (0, 0)).1 ≤ x → x < (w.getD k (0, 0)).1 + (w.getD k (0, 0)).2 →
      (w.getD l (0, 0)).1 ≤ x → x < (w.getD l (0, 0)).1 + (w.getD l (0, 0)).2 → k = l) ∧
    (∀ k, k < w.length → p ≤ (w.getD k (0, 0)).1 ∧ (w.getD k (0, 0)).1 < M ∧
      (w.getD k (0, 0)).1 + (w.getD k (0, 0)).2 ≤ windowsEnd p w ∧ 0 < (w.getD k (0, 0)).2) := by
  intro w
  induction w with
  | nil =>
    intro p h
    refine ⟨le_rfl, h, fun x h1 h2 => ?_, fun k l x hk => by simp at hk, fun k hk => by simp at hk⟩
    simp only [windowsEnd] at h2
    omega
  | cons a t ih =>
    intro p h
    obtain ⟨h1, h2, h3, h4⟩ := h
    obtain ⟨i1, i2, i3, i4, i5⟩ := ih _ h4
    have he : windowsEnd p (a :: t) = windowsEnd (p + a.2) t := rfl
    rw [he]
    refine ⟨by omega, i2, ?_, ?_, ?_⟩
    · intro x hx hx2
      by_cases hxa : x < p + a.2
      · exact ⟨0, by simp, by simpa [h1] using hx, by simpa [h1] using hxa⟩
      · obtain ⟨k, hk, hk1, hk2⟩ := i3 x (by omega) hx2
        exact ⟨k + 1, by simpa using hk, by simpa using hk1, by simpa using hk2⟩
    · intro k l x hk hl a1 a2 b1 b2
      cases k with
      | zero =>
        cases l with
        | zero => rfl
        | succ l =>
          exfalso
          simp only [List.getD_cons_succ, List.getD_cons_zero] at a1 a2 b1 b2
          have := (i5 l (by simpa using hl)).1
          omega
      | succ k =>
        cases l with
        | zero =>
          exfalso
          simp only [List.getD_cons_succ, List.getD_cons_zero] at a1 a2 b1 b2
          have := (i5 k (by simpa using hk)).1
          omega
        | succ l =>
          simp only [List.getD_cons_succ] at a1 a2 b1 b2
          rw [i4 k l x (by simpa using hk) (by simpa using hl) a1 a2 b1 b2]
    · intro k hk
      cases k with
      | zero =>
        simp only [List.getD_cons_zero, h1]
        exact ⟨le_rfl, h3, by omega, h2⟩
      | succ k =>
        simp only [List.getD_cons_succ]
        obtain ⟨q1, q2, q3, q4⟩ := i5 k (by simpa using hk)
        exact ⟨by omega, q2, q3, q4⟩

/-- The default binning: where the windows of an even number of positions above 2 end. -/
theorem default_end (M : ℕ) (hM : 2 < M) (hev : Even M) : ∀ (fuel pos size : ℕ) (acc w : List (ℕ × ℕ)),
    (pos = 0 ∧ size = 1 ∨ pos = 1 ∧ size = 1 ∨ pos = 2 ∧ size = 1 ∨ Even size ∧ Odd pos ∧ 2 < pos) →
    basisLoop .exponential (some 2) M fuel pos size acc = .windows (acc.reverse ++ w) → Windows M pos w → M < windowsEnd pos w := by
  intro fuel
  induction fuel with
  | zero =>
    intro pos size acc w hinv hl hw
    unfold basisLoop at hl
    split_ifs at hl with hp
    cases w with
    | nil =>
      show M < pos
      rcases hinv with h | h | h | ⟨-, h, -⟩
      · omega
      · omega
      · omega
      · refine lt_of_le_of_ne hp ?_
        rintro rfl
        exact (Nat.not_even_iff_odd.2 h) hev
    | cons a t => exact absurd hw.2.2.1 (by omega)
  | succ fuel ih =>
    intro pos size acc w hinv hl hw
    cases w with
    | nil =>
      have hp : M ≤ pos := hw
      show M < pos
      rcases hinv with h | h | h | ⟨-, h, -⟩
      · omega
      · omega
      · omega
      · refine lt_of_le_of_ne hp ?_
        rintro rfl
        exact (Nat.not_even_iff_odd.2 h) hev
    | cons a t =>
      obtain ⟨h1, h2, h3, h4⟩ := hw
      rw [basisLoop, if_neg (by omega)] at hl
      obtain ⟨size', hn, hs', hi⟩ : ∃ size', nextWindow .exponential (some 2) (pos + size) size = some size' ∧ True ∧
          (pos + size = 0 ∧ size' = 1 ∨ pos + size = 1 ∧ size' = 1 ∨ pos + size = 2 ∧ size' = 1 ∨
            Even size' ∧ Odd (pos + size) ∧ 2 < pos + size) := by
        unfold nextWindow
        simp only
        rcases hinv with ⟨rfl, rfl⟩ | ⟨rfl, rfl⟩ | ⟨rfl, rfl⟩ | ⟨q1, q2, q3⟩
        · exact ⟨1, rfl, trivial, by omega⟩
        · exact ⟨1, rfl, trivial, by omega⟩
        · exact ⟨2, rfl, trivial, Or.inr (Or.inr (Or.inr ⟨by decide, by decide, by norm_num⟩))⟩
        · rw [if_pos (by omega)]
          exact ⟨2 * size, rfl, trivial, Or.inr (Or.inr (Or.inr ⟨⟨size, by ring⟩, Odd.add_even q2 q1, by omega⟩))⟩
      simp only [hn] at hl
      -- the first window of the list is the current one
      have hmono : ∀ (fuel pos size : ℕ) (acc v : List (ℕ × ℕ)), basisLoop .exponential (some 2) M fuel pos size acc = .windows v →
          ∃ u, v = acc.reverse ++ u := by
        intro fuel
        induction fuel with
        | zero =>
          intro pos size acc v h
          unfold basisLoop at h
          split_ifs at h
          exact ⟨[], by simpa using (BasisResult.windows.inj h).symm⟩
        | succ fuel ihf =>
          intro pos size acc v h
          rw [basisLoop] at h
          split_ifs at h
          · exact ⟨[], by simpa using (BasisResult.windows.inj h).symm⟩
          · cases hnn : nextWindow .exponential (some 2) (pos + size) size with
            | none => simp [hnn] at h
            | some s =>
              simp only [hnn] at h
              obtain ⟨u, hu⟩ := ihf _ _ _ _ h
              exact ⟨(pos, size) :: u, by simpa using hu⟩
      obtain ⟨u, hu⟩ := hmono _ _ _ _ _ hl
      simp only [List.reverse_cons, List.append_assoc, List.singleton_append] at hu
      have := List.append_cancel_left hu
      rw [List.cons.injEq] at this
      obtain ⟨rfl, rfl⟩ := this
      exact ih _ _ ((pos, size) :: acc) t hi (by rw [hl]; simp) h4

theorem filterPos_le (n i : ℕ) (hi : i < n) : filterPos n i ≤ n / 2 := by
  unfold filterPos fftfreq
  split_ifs <;> omega

theorem filterPos_self (n i : ℕ) (hi : i < n / 2) : filterPos n i = i := by
  unfold filterPos fftfreq
  rw [if_pos (by omega)]
  rfl

/-! ## Orthogonalisation -/

section
variable {n : ℕ}

theorem rowDot_comm (u v : Fin n → ℝ) : rowDot u v = rowDot v u := by
  unfold rowDot
  exact Finset.sum_congr rfl fun i _ => mul_comm _ _

theorem rowDot_sub (u v x : Fin n → ℝ) (c : ℝ) : rowDot u (fun i => v i - x i * c) = rowDot u v - c * rowDot u x := by
  unfold rowDot
  rw [Finset.mul_sum, ← Finset.sum_sub_distrib]
  exact Finset.sum_congr rfl fun i _ => by ring

theorem removeProjections_spec : ∀ (prev done : List (Fin n → ℝ)) (v : Fin n → ℝ),
    (done ++ prev).Pairwise (fun u w => rowDot u w = 0) → (∀ u ∈ prev, rowDot u u ≠ 0) → (∀ u ∈ done, rowDot u v = 0) →
    ∀ u ∈ done ++ prev, rowDot u (removeProjections prev v) = 0 := by
  intro prev
  induction prev with
  | nil =>
    intro done v _ _ hd u hu
    rw [List.append_nil] at hu
    exact hd u hu
  | cons a t ih =>
    intro done v hp hn hd
    have h1 := ih (done ++ [a]) (fun i => v i - a i * rowDot a v / rowDot a a) (by simpa using hp)
      (fun u hu => hn u (List.mem_cons_of_mem _ hu)) (by
        intro u hu
        have e : (fun i => v i - a i * rowDot a v / rowDot a a) = fun i => v i - a i * (rowDot a v / rowDot a a) := by
          funext i; rw [mul_div_assoc]
        rw [e, rowDot_sub]
        rcases List.mem_append.1 hu with h | h
        · rw [hd u h, (List.pairwise_append.1 hp).2.2 u h a (by simp)]
          ring
        · rw [List.mem_singleton.1 h, div_mul_cancel₀ _ (hn a (by simp)), sub_self])
    intro u hu
    exact h1 u (by simpa using hu)

theorem removeProjections_vanish : ∀ (prev : List (Fin n → ℝ)) (v : Fin n → ℝ) (i : Fin n), (∀ u ∈ prev, u i = 0) →
    removeProjections prev v i = v i := by
  intro prev
  induction prev with
  | nil => intro v i _; rfl
  | cons a t ih =>
    intro v i h
    have : removeProjections (a :: t) v i = removeProjections t (fun i => v i - a i * rowDot a v / rowDot a a) i := rfl
    rw [this, ih _ i fun u hu => h u (List.mem_cons_of_mem _ hu), h a (by simp)]
    simp

/-- The orthogonalised functions are orthogonal, and none is zero. -/
theorem orthogonalise_windows (w : List (ℕ × ℕ)) : ∀ (p : ℕ) (done : List (Fin n → ℝ)), Windows (n / 2) p w →
    done.Pairwise (fun u v => rowDot u v = 0) → (∀ u ∈ done, rowDot u u ≠ 0) → (∀ u ∈ done, ∀ i : Fin n, p ≤ filterPos n i → u i = 0) →
    let r := (w.map (basis1 n)).foldl (fun done v => done ++ [removeProjections done v]) done
    r.Pairwise (fun u v => rowDot u v = 0) ∧ (∀ u ∈ r, rowDot u u ≠ 0) ∧ r.length = done.length + w.length := by
  induction w with
  | nil => intro p done _ h1 h2 _; exact ⟨h1, h2, by simp⟩
  | cons a t ih =>
    intro p done hw h1 h2 h3
    obtain ⟨a1, a2, a3, a4⟩ := hw
    set v := removeProjections done (basis1 n a) with hv
    have horth : ∀ u ∈ done, rowDot u v = 0 := by
      intro u hu
      exact removeProjections_spec done [] (basis1 n a) (by simpa using h1) h2 (fun u hu => by simp at hu) u (by simpa using hu)
    have hvan : ∀ i : Fin n, p ≤ filterPos n i → v i = basis1 n a i := fun i hi => removeProjections_vanish _ _ _ fun u hu => h3 u hu i hi
    have hne : rowDot v v ≠ 0 := by
      have hlt : p < n := by omega
      have hvi : v ⟨p, hlt⟩ ≠ 0 := by
        rw [hvan ⟨p, hlt⟩ (by rw [filterPos_self n p a3])]
        unfold basis1
        simp only
        rw [filterPos_self n p a3, a1]
        have : (p : ℝ) / (p + a.2 : ℕ) < 1 := by
          rw [div_lt_one (by positivity)]
          exact_mod_cast (by omega : p < p + a.2)
        exact (lt_max_of_lt_left (by linarith)).ne'
      intro h0
      unfold rowDot at h0
      rw [Finset.sum_eq_zero_iff_of_nonneg (fun i _ => mul_self_nonneg _)] at h0
      exact hvi (mul_self_eq_zero.1 (h0 ⟨p, hlt⟩ (Finset.mem_univ _)))
    have hv0 : ∀ i : Fin n, p + a.2 ≤ filterPos n i → v i = 0 := by
      intro i hi
      rw [hvan i (by omega)]
      unfold basis1
      have : (1 : ℝ) ≤ (filterPos n i : ℝ) / (a.1 + a.2 : ℕ) := by
        rw [le_div_iff₀ (by positivity), one_mul, a1]
        exact_mod_cast hi
      exact max_eq_right (by linarith)
    obtain ⟨r1, r2, r3⟩ := ih (p + a.2) (done ++ [v]) a4
      (List.pairwise_append.2 ⟨h1, List.pairwise_singleton _ _, fun u hu x hx => by rw [List.mem_singleton.1 hx]; exact horth u hu⟩)
      (fun u hu => by
        rcases List.mem_append.1 hu with h | h
        · exact h2 u h
        · rw [List.mem_singleton.1 h]; exact hne)
      (fun u hu i hi => by
        rcases List.mem_append.1 hu with h | h
        · exact h3 u h i (by omega)
        · rw [List.mem_singleton.1 h]; exact hv0 i hi)
    refine ⟨r1, r2, ?_⟩
    show ((t.map (basis1 n)).foldl _ (done ++ [v])).length = _
    rw [r3]
    simp
    omega

theorem normaliseRow_spec (v : Fin n → ℝ) (h : rowDot v v ≠ 0) :
    ∑ i, |normaliseRow v i| = 1 ∧ (∀ u, rowDot u v = 0 → rowDot (normaliseRow u) (normaliseRow v) = 0) ∧
      rowDot (normaliseRow v) (normaliseRow v) ≠ 0 := by
  have hs : 0 < ∑ j, |v j| := by
    refine lt_of_le_of_ne (Finset.sum_nonneg fun _ _ => abs_nonneg _) fun h0 => h ?_
    have := (Finset.sum_eq_zero_iff_of_nonneg (fun i _ => abs_nonneg (v i))).1 h0.symm
    unfold rowDot
    exact Finset.sum_eq_zero fun i hi => by rw [abs_eq_zero.1 (this i hi), mul_zero]
  have e : ∀ u v : Fin n → ℝ, rowDot (normaliseRow u) (normaliseRow v) = rowDot u v / ((∑ j, |u j|) * ∑ j, |v j|) := by
    intro u v
    unfold rowDot normaliseRow
    rw [Finset.sum_div]
    exact Finset.sum_congr rfl fun i _ => by rw [div_mul_div_comm]
  refine ⟨?_, fun u hu => by rw [e, hu, zero_div], by rw [e]; exact div_ne_zero h (by positivity)⟩
  unfold normaliseRow
  simp only [abs_div, abs_of_pos hs]
  rw [← Finset.sum_div, div_self hs.ne']
end

/-! ## C52 -/

/-- **C52.** For any number of pixels, valid type of binning and start, the creation of the basis ends after at most `n / 2` rounds, and
then: of order zero, each frequency below the largest is in exactly one window, and no frequency is in two; of order one, the functions
are orthogonal to each other, none is zero, and if normalised the sum of their absolute values is one. -/
theorem C52_basis (type : BinningType) (start : Option ℕ) (n : ℕ) (h : type ≠ .invalid ∨ start = none) (normalized : Bool) :
    ∃ w, (∀ fuel, n / 2 ≤ fuel → basisWindows type start n fuel = .windows w) ∧
      (∀ i, i < n → filterPos n i < n / 2 → ∃ k, k < w.length ∧ basis0 n normalized (w.getD k (0, 0)) i ≠ 0) ∧
      (∀ i k l, k < w.length → l < w.length → basis0 n normalized (w.getD k (0, 0)) i ≠ 0 → basis0 n normalized (w.getD l (0, 0)) i ≠ 0 → k = l) ∧
      (createBasis1 n normalized w).length = w.length ∧
      (createBasis1 n normalized w).Pairwise (fun u v => ∑ i, u i * v i = 0) ∧
      (∀ u ∈ createBasis1 n normalized w, ∑ i, u i * u i ≠ 0 ∧ (normalized = true → ∑ i, |u i| = 1)) := by
  obtain ⟨w, hw, hl⟩ := basisLoop_spec type start (n / 2) h (n / 2) 0 1 one_pos (by omega)
  obtain ⟨p1, p2, p3, p4, p5⟩ := windows_partition (n / 2) w 0 hw
  have hb0 : ∀ k i, k < w.length → (basis0 n normalized (w.getD k (0, 0)) i ≠ 0 ↔
      (w.getD k (0, 0)).1 ≤ filterPos n i ∧ filterPos n i < (w.getD k (0, 0)).1 + (w.getD k (0, 0)).2) := by
    intro k i hk
    unfold basis0
    have hs : ((w.getD k (0, 0)).2 : ℝ) ≠ 0 := by exact_mod_cast (p5 k hk).2.2.2.ne'
    split_ifs with hc hn
    · exact ⟨fun _ => hc, fun _ => one_div_ne_zero hs⟩
    · exact ⟨fun _ => hc, fun _ => one_ne_zero⟩
    · exact ⟨fun h => absurd rfl h, fun h => absurd h hc⟩
  obtain ⟨r1, r2, r3⟩ := orthogonalise_windows (n := n) w 0 [] hw List.Pairwise.nil (fun u hu => by simp at hu) (fun u hu => by simp at hu)
  refine ⟨w, fun fuel hf => ?_, ?_, ?_, ?_, ?_, ?_⟩
  · have := hl fuel [] hf
    simpa [basisWindows] using this
  · intro i _ hlt
    obtain ⟨k, hk, h1, h2⟩ := p3 (filterPos n i) (Nat.zero_le _) (by omega)
    exact ⟨k, hk, (hb0 k i hk).2 ⟨h1, h2⟩⟩
  · intro i k l hk hl' h1 h2
    have a := (hb0 k i hk).1 h1
    have b := (hb0 l i hl').1 h2
    exact p4 k l _ hk hl' a.1 a.2 b.1 b.2
  · unfold createBasis1
    cases normalized <;> simp [orthogonalise, r3]
  · unfold createBasis1
    cases normalized with
    | false => exact r1
    | true =>
      simp only [if_true]
      rw [List.pairwise_map]
      refine r1.imp_of_mem fun {u v} hu hv huv => ?_
      exact (normaliseRow_spec v (r2 v hv)).2.1 u huv
  · unfold createBasis1
    cases normalized with
    | false => intro u hu; exact ⟨r2 u hu, fun h => by simp at h⟩
    | true =>
      simp only [if_true]
      intro u hu
      obtain ⟨v, hv, rfl⟩ := List.mem_map.1 hu
      obtain ⟨q1, -, q3⟩ := normaliseRow_spec v (r2 v hv)
      exact ⟨q3, fun _ => q1⟩

/-- **C52 (default options).** With the default binning, and for the padded sizes of any data, the windows cover all the frequencies. -/
theorem C52_default_cover (N : ℕ) (normalized : Bool) :
    ∃ w, (∀ fuel, paddingSize N / 2 ≤ fuel → basisWindows .exponential (some 2) (paddingSize N) fuel = .windows w) ∧
      ∀ i, i < paddingSize N → ∃! k, k < w.length ∧ basis0 (paddingSize N) normalized (w.getD k (0, 0)) i ≠ 0 := by
  obtain ⟨⟨e, he⟩, h64, -⟩ := paddingSize_spec N
  generalize paddingSize N = n at *
  obtain ⟨w, hw, hl⟩ := basisLoop_spec .exponential (some 2) (n / 2) (Or.inl (by simp)) (n / 2) 0 1 one_pos (by omega)
  obtain ⟨p1, p2, p3, p4, p5⟩ := windows_partition (n / 2) w 0 hw
  have hev : Even (n / 2) := by
    have h2 : 2 ≤ e := by
      by_contra h
      have : 2 ^ e ≤ 2 ^ 1 := Nat.pow_le_pow_right (by norm_num) (by omega)
      omega
    obtain ⟨e', rfl⟩ := Nat.exists_eq_add_of_le h2
    refine ⟨2 ^ e', ?_⟩
    rw [he, pow_add]
    omega
  have hend := default_end (n / 2) (by omega) hev (n / 2) 0 1 [] w (Or.inl ⟨rfl, rfl⟩) (hl _ [] le_rfl) hw
  have hb0 : ∀ k i, k < w.length → (basis0 n normalized (w.getD k (0, 0)) i ≠ 0 ↔
      (w.getD k (0, 0)).1 ≤ filterPos n i ∧ filterPos n i < (w.getD k (0, 0)).1 + (w.getD k (0, 0)).2) := by
    intro k i hk
    unfold basis0
    have hs : ((w.getD k (0, 0)).2 : ℝ) ≠ 0 := by exact_mod_cast (p5 k hk).2.2.2.ne'
    split_ifs with hc hn
    · exact ⟨fun _ => hc, fun _ => one_div_ne_zero hs⟩
    · exact ⟨fun _ => hc, fun _ => one_ne_zero⟩
    · exact ⟨fun h => absurd rfl h, fun h => absurd h hc⟩
  refine ⟨w, fun fuel hf => by simpa [basisWindows] using hl fuel [] hf, fun i hi => ?_⟩
  obtain ⟨k, hk, h1, h2⟩ := p3 (filterPos n i) (Nat.zero_le _) (by have := filterPos_le n i hi; omega)
  refine ⟨k, ⟨hk, (hb0 k i hk).2 ⟨h1, h2⟩⟩, ?_⟩
  rintro l ⟨hl1, hl2⟩
  have b := (hb0 l i hl1).1 hl2
  exact p4 l k _ hl1 hk b.1 b.2 h1 h2

/-- Not vacuous: the windows for 64 pixels. -/
example : basisWindows .exponential (some 2) 64 32 = .windows [(0, 1), (1, 1), (2, 1), (3, 2), (5, 4), (9, 8), (17, 16)] := rfl

/-! ## C114 -/

/-- **C114 (violated).** The windows of order zero cover all the frequencies, for any options: without binning the largest is left out. -/
theorem C114_basis_cover_violated :
    ¬ ∀ (type : BinningType) (start : Option ℕ) (n fuel : ℕ) (w : List (ℕ × ℕ)), basisWindows type start n fuel = .windows w →
      ∀ i, i < n → ∃ k, k < w.length ∧ basis0 n false (w.getD k (0, 0)) i ≠ 0 := by
  intro h
  obtain ⟨k, hk, hk'⟩ := h .exponential none 4 4 [(0, 1), (1, 1)] rfl 2 (by norm_num)
  have hp : filterPos 4 2 = 2 := rfl
  unfold basis0 at hk'
  rw [hp] at hk'
  simp only [List.length_cons, List.length_nil] at hk
  interval_cases k <;> simp at hk'

private theorem basisLoop_chain (type : BinningType) (start : Option ℕ) (M : ℕ) (R : ℕ × ℕ → ℕ × ℕ → Prop)
    (hR : ∀ pos size size', nextWindow type start (pos + size) size = some size' → R (pos, size) (pos + size, size')) :
    ∀ fuel pos size acc w, basisLoop type start M fuel pos size acc = .windows w →
      ∃ l, w = acc.reverse ++ l ∧ (∀ x ∈ l.head?, x = (pos, size)) ∧ List.IsChain R l := by
  intro fuel
  induction fuel with
  | zero =>
    intro pos size acc w h
    unfold basisLoop at h
    split_ifs at h with hM
    · cases h; exact ⟨[], by simp, by simp, List.IsChain.nil⟩
  | succ fuel ih =>
    intro pos size acc w h
    unfold basisLoop at h
    split_ifs at h with hM
    · cases h; exact ⟨[], by simp, by simp, List.IsChain.nil⟩
    · dsimp only at h
      cases hn : nextWindow type start (pos + size) size with
      | none => rw [hn] at h; simp at h
      | some size' =>
        rw [hn] at h
        obtain ⟨l, h1, h2, h3⟩ := ih _ _ _ _ h
        refine ⟨(pos, size) :: l, by rw [h1]; simp, by simp, ?_⟩
        cases l with
        | nil => exact List.IsChain.singleton _
        | cons y l =>
          have : y = (pos + size, size') := h2 y (by simp)
          subst this
          exact List.IsChain.cons_cons (hR _ _ _ hn) h3

/-- **C52 (window sizes).** The windows follow each other without gap from `(0, 1)`; the size stays the same up to the start of the
binning, and after it each window is double (exponential), one larger (incremental) or by the root of the distance from the start
larger (custom) than the previous one. -/
theorem C52_window_sizes (type : BinningType) (start : Option ℕ) (n fuel : ℕ) (w : List (ℕ × ℕ))
    (h : basisWindows type start n fuel = .windows w) :
    (∀ x ∈ w.head?, x = (0, 1)) ∧
    List.IsChain (fun a b => b.1 = a.1 + a.2 ∧ (start = none → b.2 = a.2) ∧ ∀ s, start = some s → (b.1 ≤ s → b.2 = a.2) ∧
      (s < b.1 → (type = .exponential → b.2 = 2 * a.2) ∧ (type = .incremental → b.2 = a.2 + 1) ∧
        (type = .custom → b.2 = a.2 + Nat.sqrt (b.1 - s)))) w := by
  obtain ⟨l, h1, h2, h3⟩ := basisLoop_chain type start (n / 2) (fun a b => b.1 = a.1 + a.2 ∧ (start = none → b.2 = a.2) ∧ ∀ s, start = some s → (b.1 ≤ s → b.2 = a.2) ∧
      (s < b.1 → (type = .exponential → b.2 = 2 * a.2) ∧ (type = .incremental → b.2 = a.2 + 1) ∧
        (type = .custom → b.2 = a.2 + Nat.sqrt (b.1 - s)))) (fun pos size size' hn => by
    refine ⟨rfl, ?_, ?_⟩
    · rintro rfl
      simpa [nextWindow] using hn.symm
    · rintro s rfl
      simp only [nextWindow] at hn
      refine ⟨fun hs => ?_, fun hs => ?_⟩
      · rw [if_neg (by simpa using hs)] at hn
        simpa using hn.symm
      · rw [if_pos hs] at hn
        refine ⟨?_, ?_, ?_⟩ <;> rintro rfl <;> simpa using hn.symm) fuel 0 1 [] w h
  rw [List.reverse_nil, List.nil_append] at h1
  subst h1
  exact ⟨h2, h3⟩

/-- Not vacuous. -/
example : basisWindows .exponential (some 2) 64 32 = .windows [(0, 1), (1, 1), (2, 1), (3, 2), (5, 4), (9, 8), (17, 16)] := rfl

/-- **C114 (partial).** All frequencies are covered if and only if the last window passes the largest one, `n / 2`; the smaller ones always
are. -/
theorem C114_basis_cover_partial (type : BinningType) (start : Option ℕ) (n : ℕ) (hn : 2 ≤ n) (h : type ≠ .invalid ∨ start = none) :
    ∃ w, (∀ fuel, n / 2 ≤ fuel → basisWindows type start n fuel = .windows w) ∧
      (∀ i, i < n → filterPos n i < n / 2 → ∃ k, k < w.length ∧ basis0 n false (w.getD k (0, 0)) i ≠ 0) ∧
      ((∀ i, i < n → ∃ k, k < w.length ∧ basis0 n false (w.getD k (0, 0)) i ≠ 0) ↔
        ∃ k, k < w.length ∧ n / 2 < (w.getD k (0, 0)).1 + (w.getD k (0, 0)).2) := by
  obtain ⟨w, hw, hl⟩ := basisLoop_spec type start (n / 2) h (n / 2) 0 1 one_pos (by omega)
  obtain ⟨p1, p2, p3, p4, p5⟩ := windows_partition (n / 2) w 0 hw
  have hb0 : ∀ k i, (basis0 n false (w.getD k (0, 0)) i ≠ 0 ↔
      (w.getD k (0, 0)).1 ≤ filterPos n i ∧ filterPos n i < (w.getD k (0, 0)).1 + (w.getD k (0, 0)).2) := by
    intro k i
    unfold basis0
    split_ifs with hc hn
    · simp at hn
    · exact ⟨fun _ => hc, fun _ => one_ne_zero⟩
    · exact ⟨fun h => absurd rfl h, fun h => absurd h hc⟩
  have hcov : ∀ i, i < n → filterPos n i < windowsEnd 0 w → ∃ k, k < w.length ∧ basis0 n false (w.getD k (0, 0)) i ≠ 0 := by
    intro i _ hlt
    obtain ⟨k, hk, h1, h2⟩ := p3 (filterPos n i) (Nat.zero_le _) hlt
    exact ⟨k, hk, (hb0 k i).2 ⟨h1, h2⟩⟩
  have hmax : filterPos n (n / 2) = n / 2 := by
    unfold filterPos fftfreq
    split_ifs <;> omega
  refine ⟨w, fun fuel hf => by simpa [basisWindows] using hl fuel [] hf, fun i hi hlt => hcov i hi (by omega), ?_⟩
  constructor
  · intro hall
    obtain ⟨k, hk, hk'⟩ := hall (n / 2) (by omega)
    have := ((hb0 k (n / 2)).1 hk').2
    rw [hmax] at this
    exact ⟨k, hk, this⟩
  · rintro ⟨k, hk, hk'⟩ i hi
    have := (p5 k hk).2.2.1
    have := filterPos_le n i hi
    exact hcov i hi (by omega)

/-! ## C115 -/

/-- **C115.** The filter that `FilterMR` fits is the best of all combinations of the functions of its basis: no other gives a smaller
squared difference of the re-projected reconstruction and the data, plus the squared smoothing term. The back-projector need not be the
transpose of the projector; it, the filtering and the differences are linear. -/
theorem C115_fitted_filter {S V D : Type} [Fintype S] [Fintype D] {Kf : ℕ} {Φ : Type} [AddCommGroup Φ] [Module ℝ Φ]
    (filt : Φ →ₗ[ℝ] S → ℝ) (prj : (V → ℝ) →ₗ[ℝ] S → ℝ) (bp : (S → ℝ) →ₗ[ℝ] V → ℝ) (mask : V → ℝ) (diff : (V → ℝ) →ₗ[ℝ] D → ℝ) (lam : ℝ)
    (basis : Fin Kf → Φ) (data : S → ℝ) (c : Fin Kf → ℝ)
    (hlsq : ∀ c' : Fin Kf → ℝ,
      ∑ r, (∑ k, mrColumn filt prj bp mask diff lam (basis k) r * c k - Sum.elim data (fun _ => 0) r) ^ 2 ≤
      ∑ r, (∑ k, mrColumn filt prj bp mask diff lam (basis k) r * c' k - Sum.elim data (fun _ => 0) r) ^ 2) :
    let rec_ := fun F : Φ => fun v => bp (filt F) v * mask v
    let cost := fun F : Φ => ∑ s, (prj (rec_ F) s - data s) ^ 2 + lam ^ 2 * ∑ q, diff (rec_ F) q ^ 2
    ∀ c' : Fin Kf → ℝ, cost (∑ k, c k • basis k) ≤ cost (∑ k, c' k • basis k) := by
  intro rec_ cost c'
  let recL : Φ →ₗ[ℝ] V → ℝ :=
    { toFun := rec_
      map_add' := fun F G => by
        funext v
        show bp (filt (F + G)) v * mask v = bp (filt F) v * mask v + bp (filt G) v * mask v
        rw [map_add, map_add, Pi.add_apply, add_mul]
      map_smul' := fun a F => by
        funext v
        show bp (filt (a • F)) v * mask v = a * (bp (filt F) v * mask v)
        rw [map_smul, map_smul, Pi.smul_apply, smul_eq_mul, mul_assoc] }
  have hsum : ∀ {R : Type} (L : (V → ℝ) →ₗ[ℝ] R → ℝ) (d : Fin Kf → ℝ) (r : R), L (rec_ (∑ k, d k • basis k)) r = ∑ k, L (rec_ (basis k)) r * d k := by
    intro R L d r
    have : L (rec_ (∑ k, d k • basis k)) = (L.comp recL) (∑ k, d k • basis k) := rfl
    rw [this, map_sum, Finset.sum_apply]
    refine Finset.sum_congr rfl fun k _ => ?_
    rw [map_smul, Pi.smul_apply, smul_eq_mul, mul_comm]
    rfl
  have hcost : ∀ d : Fin Kf → ℝ, cost (∑ k, d k • basis k) =
      ∑ r, (∑ k, mrColumn filt prj bp mask diff lam (basis k) r * d k - Sum.elim data (fun _ => 0) r) ^ 2 := by
    intro d
    rw [Fintype.sum_sum_type]
    show ∑ s, (prj (rec_ (∑ k, d k • basis k)) s - data s) ^ 2 + lam ^ 2 * ∑ q, diff (rec_ (∑ k, d k • basis k)) q ^ 2 = _
    simp only [hsum, Finset.mul_sum]
    congr 1
    refine Finset.sum_congr rfl fun q _ => ?_
    simp only [mrColumn, Sum.elim_inr, sub_zero]
    rw [← mul_pow, Finset.mul_sum]
    congr 1
    exact Finset.sum_congr rfl fun k _ => by ring
  rw [hcost, hcost]
  exact hlsq c'

/-- Not vacuous: one pixel, one function, data 6; the fit is exact. -/
example : ∀ c' : Fin 1 → ℝ,
    ∑ r, (∑ k, mrColumn (LinearMap.id : (Fin 1 → ℝ) →ₗ[ℝ] Fin 1 → ℝ) (LinearMap.id : (Fin 1 → ℝ) →ₗ[ℝ] Fin 1 → ℝ)
      (LinearMap.id : (Fin 1 → ℝ) →ₗ[ℝ] Fin 1 → ℝ) (fun _ => 1) (0 : (Fin 1 → ℝ) →ₗ[ℝ] Fin 0 → ℝ) 0 ((fun _ _ => 2 : Fin 1 → Fin 1 → ℝ) k) r * (fun _ => 3 : Fin 1 → ℝ) k -
        Sum.elim (fun _ => 6) (fun _ => 0) r) ^ 2 ≤
    ∑ r, (∑ k, mrColumn (LinearMap.id : (Fin 1 → ℝ) →ₗ[ℝ] Fin 1 → ℝ) (LinearMap.id : (Fin 1 → ℝ) →ₗ[ℝ] Fin 1 → ℝ)
      (LinearMap.id : (Fin 1 → ℝ) →ₗ[ℝ] Fin 1 → ℝ) (fun _ => 1) (0 : (Fin 1 → ℝ) →ₗ[ℝ] Fin 0 → ℝ) 0 ((fun _ _ => 2 : Fin 1 → Fin 1 → ℝ) k) r * c' k -
        Sum.elim (fun _ => 6) (fun _ => 0) r) ^ 2 := by
  intro c'
  refine le_trans (le_of_eq ?_) (Finset.sum_nonneg fun r _ => sq_nonneg _)
  simp [mrColumn]
  norm_num

/-! ## C116 -/

/-- A history of calls of one `FilterMR`, by the sizes of the data. -/
noncomputable def mrHistory (hist : List ℕ) : Option ℕ := hist.foldl (fun st N => (mrCall st N).1) none

/-- **C116 (violated).** What a `FilterMR` does with data does not depend on the data that it has processed before: it keeps the basis of
the first ones, and fails for data with another padded size. -/
theorem C116_filter_history_violated :
    ¬ ∀ (hist : List ℕ) (N : ℕ), (mrCall (mrHistory hist) N).2 = (mrCall none N).2 := by
  intro h
  have h1 := h [1] 64
  obtain ⟨-, h64, h128, -⟩ := paddingSize_spec 64
  have hs : paddingSize 1 = 64 := by
    rcases (paddingSize_spec 1).2.2.2 with h | h
    · exact h
    · have := (paddingSize_spec 1).2.1
      omega
  unfold mrHistory mrCall at h1
  simp only [List.foldl_cons, List.foldl_nil, Option.getD_none, Option.getD_some] at h1
  have hne : ¬ (64 = paddingSize 64) := by omega
  simp [hs, hne] at h1

/-- **C116 (partial).** It does not if all data have the same padded size. -/
theorem C116_filter_history_partial (hist : List ℕ) (N : ℕ) (h : ∀ M ∈ hist, paddingSize M = paddingSize N) :
    (mrCall (mrHistory hist) N).2 = (mrCall none N).2 := by
  have key : ∀ (hist : List ℕ) (st : Option ℕ), (st = none ∨ st = some (paddingSize N)) → (∀ M ∈ hist, paddingSize M = paddingSize N) →
      (hist.foldl (fun st N => (mrCall st N).1) st = none ∨ hist.foldl (fun st N => (mrCall st N).1) st = some (paddingSize N)) := by
    intro hist
    induction hist with
    | nil => intro st h _; exact h
    | cons a t ih =>
      intro st hst hall
      refine ih _ (Or.inr ?_) fun M hM => hall M (List.mem_cons_of_mem _ hM)
      unfold mrCall
      rcases hst with rfl | rfl
      · simp [hall a (by simp)]
      · simp
  rcases key hist none (Or.inl rfl) h with h0 | h0
  · unfold mrHistory; rw [h0]
  · unfold mrHistory; rw [h0]; simp [mrCall]

end Verif
