import Verif.Model.AlignVertical
import Verif.Props.AlignVolumes
import Verif.Props.AlignPre

/-!
# C215: the vertical pre-alignment
-/

namespace Verif

open ZMod Complex

/-! ## One profile -/

theorem refineMax3_scale (y0 y1 y2 c : ℝ) (hc : 0 < c) (d : ℕ) : refineMax3 (y0 / c) (y1 / c) (y2 / c) d = refineMax3 y0 y1 y2 d := by
  have ha : (parab3 (-1) 0 1 (y0 / c) (y1 / c) (y2 / c)).a = (parab3 (-1) 0 1 y0 y1 y2).a / c := by unfold parab3; simp only; ring
  have hb : (parab3 (-1) 0 1 (y0 / c) (y1 / c) (y2 / c)).b = (parab3 (-1) 0 1 y0 y1 y2).b / c := by unfold parab3; simp only; ring
  have hv : (parab3 (-1) 0 1 (y0 / c) (y1 / c) (y2 / c)).vertex = (parab3 (-1) 0 1 y0 y1 y2).vertex := by
    unfold Parab.vertex
    rw [ha, hb]
    rw [← neg_div, ← mul_div_assoc, div_div_div_cancel_right₀ hc.ne']
  unfold refineMax3
  simp only
  rw [hv, ha]
  simp [hc.ne']

theorem argmin_scale (f : ℕ → ℝ) (c : ℝ) (hc : 0 < c) (n : ℕ) : argmin (fun i => -(f i / c)) n = argmin (fun i => -f i) n := by
  unfold argmin
  congr 1
  funext m i
  have : -(f i / c) < -(f m / c) ↔ -f i < -f m := by
    rw [neg_lt_neg_iff, neg_lt_neg_iff, div_lt_div_iff_of_pos_right hc]
  simp only [this]

/-- Without the change of size of `irfft`, the shift is that of `fit_shifts_vu_xc`. -/
theorem vShift_eq {L : ℕ} [NeZero L] (rfft norm : Bool) (hr : rfft = true → Even L) (eps : ℝ) (he : 0 < eps) (ref img : ZMod L → ℝ) (d : ℕ) :
    vShift rfft norm eps ref img d = fitShiftU rfft ref img d := by
  have hw := width_eq (n := L) rfft hr
  unfold vShift fitShiftU
  simp only [hw]
  set scale : ℝ := if norm = true then max (⨆ l : Fin (if rfft = true then L / 2 + 1 else L), ‖xcSpectrum (m := 1) (fun _ => ref) (fun _ => img) 0 (l : ℕ)‖) eps else 1
    with hs
  have hpos : 0 < scale := by
    rw [hs]
    by_cases hn : norm = true
    · rw [if_pos hn]; exact lt_max_of_lt_right he
    · rw [if_neg hn]; norm_num
  rw [argmin_scale _ _ hpos, refineMax3_scale _ _ _ _ hpos]
  cases refineMax3 (xcImage (m := 1) rfft (fun _ => ref) (fun _ => img) 0
    ((argmin (fun i => -xcImage (m := 1) rfft (fun _ => ref) (fun _ => img) 0 i) L + L - 1) % L))
    (xcImage (m := 1) rfft (fun _ => ref) (fun _ => img) 0 (argmin (fun i => -xcImage (m := 1) rfft (fun _ => ref) (fun _ => img) 0 i) L))
    (xcImage (m := 1) rfft (fun _ => ref) (fun _ => img) 0 ((argmin (fun i => -xcImage (m := 1) rfft (fun _ => ref) (fun _ => img) 0 i) L + 1) % L)) d with
  | none => rfl
  | some t => simp [add_comm]

/-- Rows that show a function of the integers from two start positions are moved copies of each other, if nothing is lost. -/
theorem row_moved {L : ℕ} [NeZero L] (F : ℤ → ℝ) (s t : ℤ) (hs : ∀ k, F k ≠ 0 → 0 ≤ k - s ∧ k - s < L) (ht : ∀ k, F k ≠ 0 → 0 ≤ k - t ∧ k - t < L)
    (j : ZMod L) : F ((j.val : ℤ) + s) = F (((j - ((t - s : ℤ) : ZMod L)).val : ℤ) + t) := by
  obtain ⟨i1, i2⟩ := residue_moved_eq j (t - s)
  by_cases hF : F (((j - ((t - s : ℤ) : ZMod L)).val : ℤ) + t) = 0
  · rw [hF]
    by_contra hG
    obtain ⟨a, b⟩ := ht _ hG
    have := i2 ⟨by linarith, by linarith⟩
    rw [← this] at hF
    apply hG
    rw [← hF]
    congr 1
    ring
  · obtain ⟨a, b⟩ := hs _ hF
    have := i1 ⟨by linarith, by linarith⟩
    rw [← this]
    congr 1
    ring

/-- A row that is zero outside of a window of at most half of the samples is not periodic. -/
theorem row_aperiodic {L : ℕ} [NeZero L] (x : ZMod L → ℝ) (A l : ℕ) (hl : l + L / 2 ≤ L) (hx : ∀ j, x j ≠ 0 → A ≤ j.val ∧ j.val < A + l)
    (hne : ∃ j, x j ≠ 0) (b : ZMod L) (hb : ∀ j, x (j + b) = x j) : b = 0 := by
  by_contra hbne
  let S : Finset (ZMod L) := Finset.univ.filter fun j => x j ≠ 0
  have hS : S.Nonempty := by
    obtain ⟨j, hj⟩ := hne
    exact ⟨j, by simp [S, hj]⟩
  obtain ⟨j, hj, hmax⟩ := Finset.exists_max_image S ZMod.val hS
  simp only [S, Finset.mem_filter, Finset.mem_univ, true_and] at hj hmax
  obtain ⟨j1, j2⟩ := hx j hj
  have hjL : j.val < L := ZMod.val_lt j
  have step : ∀ c : ZMod L, c ≠ 0 → c.val ≤ L / 2 → (∀ j, x (j + c) = x j) → False := by
    intro c hc hcn hper
    have hj' : x (j + c) ≠ 0 := by rw [hper]; exact hj
    have h1 := hmax (j + c) hj'
    obtain ⟨h2, h3⟩ := hx _ hj'
    have hpos : 0 < c.val := Nat.pos_of_ne_zero fun h0 => hc ((ZMod.val_eq_zero c).1 h0)
    rcases lt_or_ge (j.val + c.val) L with hlt | hge
    · rw [ZMod.val_add_of_lt hlt] at h1
      omega
    · have := ZMod.val_add_val_of_le hge
      omega
  have hb' : ∀ j, x (j + -b) = x j := by
    intro j
    rw [← hb (j + -b)]; congr 1; ring
  rcases le_or_gt b.val (L / 2) with hle | hgt
  · exact step b hbne hle hb
  · refine step (-b) (neg_ne_zero.2 hbne) ?_ hb'
    have : NeZero b := ⟨hbne⟩
    rw [ZMod.val_neg_of_ne_zero]
    omega

/-! ## The profiles -/

section

variable {V W : ℕ} (f : ℤ → ℝ) (c : ℝ) (s : Fin W → ℤ)

/-- The profiles show the whole range of the object. -/
theorem profile_range (hV : 0 < V) (hin : ∀ k, f k ≠ c → ∀ w, 1 ≤ k - s w ∧ k - s w ≤ (V : ℤ) - 2) (w : Fin W) :
    Set.range (fun v : Fin V => f ((v : ℕ) + s w)) = Set.range f := by
  ext y
  constructor
  · rintro ⟨v, rfl⟩
    exact ⟨_, rfl⟩
  · rintro ⟨k, rfl⟩
    by_cases hk : f k = c
    · refine ⟨⟨0, hV⟩, ?_⟩
      simp only [Nat.cast_zero, zero_add]
      rw [hk]
      by_contra hc
      have := hin _ hc w
      omega
    · obtain ⟨h1, h2⟩ := hin k hk w
      refine ⟨⟨(k - s w).toNat, by omega⟩, ?_⟩
      simp only
      congr 1
      omega

theorem profile_sup_inf (hV : 0 < V) (hin : ∀ k, f k ≠ c → ∀ w, 1 ≤ k - s w ∧ k - s w ≤ (V : ℤ) - 2) (w : Fin W) :
    (⨆ v : Fin V, f ((v : ℕ) + s w)) = sSup (Set.range f) ∧ (⨅ v : Fin V, f ((v : ℕ) + s w)) = sInf (Set.range f) := by
  rw [← profile_range f c s hV hin w]
  exact ⟨rfl, rfl⟩

/-- What is correlated: the normalised profile as a function of the integers, or its differences; position `k` of the array for angle `w` shows
`vContent (k + s w)`. -/
noncomputable def vContent (deriv : Bool) (V : ℕ) (f : ℤ → ℝ) (k : ℤ) : ℝ :=
  let g : ℤ → ℝ := fun k => (f k - sInf (Set.range f)) / (sSup (Set.range f) - sInf (Set.range f))
  if deriv then g (k - (V / 2 : ℕ) + 1) - g (k - (V / 2 : ℕ)) else g (k - (V / 2 : ℕ))

theorem padded_eq (hV : 2 ≤ V) (hin : ∀ k, f k ≠ c → ∀ w, 1 ≤ k - s w ∧ k - s w ≤ (V : ℤ) - 2) (deriv : Bool) (hbase : deriv = false → ∀ k, c ≤ f k) (w : Fin W)
    (i : ℕ) (hi : i < vLength deriv V) : vPadded deriv (vNormalise fun v : Fin V => f ((v : ℕ) + s w)) i = vContent deriv V f (i + s w) := by
  obtain ⟨hM, hm⟩ := profile_sup_inf f c s (by omega) hin w
  have hn : ∀ v : Fin V, vNormalise (fun v : Fin V => f ((v : ℕ) + s w)) v =
      (f ((v : ℕ) + s w) - sInf (Set.range f)) / (sSup (Set.range f) - sInf (Set.range f)) := by
    intro v
    unfold vNormalise
    rw [hM, hm]
  have hout : ∀ k : ℤ, (k - s w < 1 ∨ (V : ℤ) - 2 < k - s w) → f k = c := by
    intro k hk
    by_contra hc
    have := hin k hc w
    omega
  unfold vPadded vContent
  simp only [hn]
  cases deriv with
  | true =>
    simp only [if_true]
    unfold vLength at hi
    simp only [if_true] at hi
    split_ifs with h1 h2 h3
    · have e1 : ((i - V / 2 + 1 : ℕ) : ℤ) + s w = (i : ℤ) + s w - (V / 2 : ℕ) + 1 := by push_cast [Nat.cast_sub h1.1]; ring
      have e2 : ((i - V / 2 : ℕ) : ℤ) + s w = (i : ℤ) + s w - (V / 2 : ℕ) := by push_cast [Nat.cast_sub h1.1]; ring
      rw [e1, e2]
    · omega
    · omega
    · omega
    · have e1 : f ((i : ℤ) + s w - (V / 2 : ℕ) + 1) = c := hout _ (by omega)
      have e2 : f ((i : ℤ) + s w - (V / 2 : ℕ)) = c := hout _ (by omega)
      rw [e1, e2, sub_self]
  | false =>
    have hc : sInf (Set.range f) = c := by
      refine le_antisymm ?_ (le_csInf (Set.range_nonempty f) ?_)
      · refine csInf_le ⟨c, ?_⟩ ⟨s w, hout _ (by omega)⟩
        rintro _ ⟨k, rfl⟩
        exact hbase rfl k
      · rintro _ ⟨k, rfl⟩
        exact hbase rfl k
    unfold vLength at hi
    simp only [Bool.false_eq_true, if_false] at hi ⊢
    have e0 : f (((0 : ℕ) : ℤ) + s w) = c := hout _ (by omega)
    have e9 : f (((V - 1 : ℕ) : ℤ) + s w) = c := hout _ (by omega)
    rw [hc]
    split_ifs with h1 h2 h3 h4 h5 h6
    · have e2 : f ((i : ℤ) + s w - (V / 2 : ℕ)) = c := hout _ (by omega)
      rw [e0, e2]
      simp
    · omega
    · have e2 : ((i - V / 2 : ℕ) : ℤ) + s w = (i : ℤ) + s w - (V / 2 : ℕ) := by push_cast [Nat.cast_sub (not_lt.1 h1)]; ring
      rw [e2]
    · omega
    · have e2 : f ((i : ℤ) + s w - (V / 2 : ℕ)) = c := hout _ (by omega)
      rw [e9, e2]
      simp
    · omega

/-- The profiles of an object that moves give its displacements. -/
theorem fitVProfiles_moved [NeZero W] (hV : 2 ≤ V) (deriv rfft norm : Bool) (eps : ℝ) (he : 0 < eps)
    (hin : ∀ k, f k ≠ c → ∀ w, 1 ≤ k - s w ∧ k - s w ≤ (V : ℤ) - 2) (hne : ∃ k, f k ≠ c) (hbase : deriv = false → ∀ k, c ≤ f k)
    (hr : rfft = true → Even (vLength deriv V)) (r : Fin W) (href : (r : ℕ) = W / 2) (maxShift : ℝ) (hmax : ∀ w, |(s w : ℝ) - s r| ≤ maxShift) (d : ℕ) :
    fitVProfiles deriv rfft norm eps (fun w (v : Fin V) => f ((v : ℕ) + s w)) maxShift d = some fun w => around d (s w - (∑ i, (s i : ℝ)) / W) := by
  obtain ⟨k0, hk0⟩ := hne
  have hV3 : 3 ≤ V := by have := hin k0 hk0 r; omega
  have hrr : Fin.ofNat W (W / 2) = r := by
    apply Fin.ext
    simp only [Fin.ofNat]
    rw [href, Nat.mod_eq_of_lt (by rw [← href]; exact r.isLt)]
  have hfin : (Set.range f).Finite := by
    rw [← profile_range f c s (by omega) hin r]
    exact Set.finite_range _
  have hcmem : c ∈ Set.range f := ⟨s r, by
    by_contra hc
    have := hin _ hc r
    omega⟩
  have hlt : sInf (Set.range f) < sSup (Set.range f) := by
    rcases lt_or_gt_of_ne hk0 with h | h
    · exact (csInf_le hfin.bddBelow ⟨k0, rfl⟩).trans_lt (h.trans_le (le_csSup hfin.bddAbove hcmem))
    · exact (csInf_le hfin.bddBelow hcmem).trans_lt (h.trans_le (le_csSup hfin.bddAbove ⟨k0, rfl⟩))
  have hD : sSup (Set.range f) - sInf (Set.range f) ≠ 0 := (sub_pos.2 hlt).ne'
  -- where the content is
  have hcin : ∀ k, vContent deriv V f k ≠ 0 → ∀ w, (V / 2 : ℕ) ≤ k - s w ∧ k - s w < (V / 2 : ℕ) + (if deriv then V - 1 else V : ℕ) := by
    intro k hk w
    unfold vContent at hk
    have hout : ∀ k : ℤ, (k - s w < 1 ∨ (V : ℤ) - 2 < k - s w) → f k = c := by
      intro k hk
      by_contra hc
      have := hin k hc w
      omega
    cases deriv with
    | true =>
      simp only [if_true] at hk ⊢
      by_contra hcon
      rw [hout (k - (V / 2 : ℕ) + 1) (by omega), hout (k - (V / 2 : ℕ)) (by omega), sub_self] at hk
      exact hk rfl
    | false =>
      simp only [Bool.false_eq_true, if_false] at hk ⊢
      have hc : sInf (Set.range f) = c := le_antisymm (csInf_le hfin.bddBelow hcmem) (le_csInf (Set.range_nonempty f) (by
        rintro _ ⟨k, rfl⟩
        exact hbase rfl k))
      by_contra hcon
      rw [hc, hout (k - (V / 2 : ℕ)) (by omega), sub_self, zero_div] at hk
      exact hk rfl
  have hcne : ∃ k, vContent deriv V f k ≠ 0 := by
    by_contra hcon
    push Not at hcon
    cases deriv with
    | true =>
      -- constant differences: the object is constant
      have hstep : ∀ k, f (k + 1) = f k := by
        intro k
        have := hcon (k + (V / 2 : ℕ))
        unfold vContent at this
        simp only [if_true, add_sub_cancel_right] at this
        rw [← sub_div, div_eq_zero_iff, or_iff_left hD] at this
        linarith
      have hconst : ∀ n : ℕ, f (s r + n) = c := by
        intro n
        induction n with
        | zero =>
          rw [Nat.cast_zero, add_zero]
          by_contra hc
          have := hin _ hc r
          omega
        | succ n ih => rw [Nat.cast_succ, ← add_assoc, hstep, ih]
      obtain ⟨h1, h2⟩ := hin k0 hk0 r
      have := hconst (k0 - s r).toNat
      rw [show s r + ((k0 - s r).toNat : ℤ) = k0 by omega] at this
      exact hk0 this
    | false =>
      have hc : sInf (Set.range f) = c := le_antisymm (csInf_le hfin.bddBelow hcmem) (le_csInf (Set.range_nonempty f) (by
        rintro _ ⟨k, rfl⟩
        exact hbase rfl k))
      have := hcon (k0 + (V / 2 : ℕ))
      unfold vContent at this
      simp only [Bool.false_eq_true, if_false, add_sub_cancel_right] at this
      rw [div_eq_zero_iff, or_iff_left hD, hc] at this
      exact hk0 (by linarith)
  have hL : vLength deriv V = (if deriv then V - 1 else V : ℕ) + 2 * (V / 2) := rfl
  set l : ℕ := if deriv then V - 1 else V with hl
  have hl2 : l = V - 1 ∨ l = V := by rw [hl]; split_ifs <;> simp
  have : NeZero (vLength deriv V) := ⟨by omega⟩
  have hrow : ∀ w, (fun i : ZMod (vLength deriv V) => vPadded deriv (vNormalise fun v : Fin V => f ((v : ℕ) + s w)) i.val) =
      fun i : ZMod (vLength deriv V) => vContent deriv V f (i.val + s w) := by
    intro w
    funext i
    exact padded_eq f c s hV hin deriv hbase w i.val (ZMod.val_lt i)
  have hshift : ∀ w, vShift rfft norm eps (fun i : ZMod (vLength deriv V) => vContent deriv V f (i.val + s r))
      (fun i : ZMod (vLength deriv V) => vContent deriv V f (i.val + s w)) d = some ((s w : ℝ) - s r) := by
    intro w
    rw [vShift_eq rfft norm hr eps he]
    have h1 := hin k0 hk0 w
    have h2 := hin k0 hk0 r
    have hfit := C96_row_shift (n := vLength deriv V) (by omega) rfft hr (fun i : ZMod (vLength deriv V) => vContent deriv V f (i.val + s r))
      (fun i : ZMod (vLength deriv V) => vContent deriv V f (i.val + s w)) (fun b hb => by
        refine row_aperiodic (fun i : ZMod (vLength deriv V) => vContent deriv V f (i.val + s w)) (V / 2) l (by omega) ?_ ?_ b hb
        · intro j hj
          have := hcin _ hj w
          omega
        · obtain ⟨k, hk⟩ := hcne
          have := hcin k hk w
          refine ⟨(((k - s w).toNat : ℕ) : ZMod (vLength deriv V)), ?_⟩
          rw [ZMod.val_natCast_of_lt (by omega)]
          rwa [show (((k - s w).toNat : ℕ) : ℤ) + s w = k by omega]) (s w - s r)
      (fun j => row_moved (vContent deriv V f) (s r) (s w) (fun k hk => by have := hcin k hk r; omega) (fun k hk => by have := hcin k hk w; omega) j)
      (by omega) d
    rw [hfit]
    push_cast
    rfl
  unfold fitVProfiles
  rw [dif_neg (by omega), if_neg]
  · simp only [hrow, hrr, hshift, Option.isSome_some, implies_true, if_true, Option.getD_some]
    congr 1
    funext w
    have hf : ∀ w, filterShift maxShift ((s w : ℝ) - s r) = (s w : ℝ) - s r := fun w => if_neg (not_lt.2 (hmax w))
    simp only [hf]
    congr 1
    rw [Finset.sum_sub_distrib, Finset.sum_const, Finset.card_univ, Fintype.card_fin, nsmul_eq_mul, sub_div]
    have : (W : ℝ) ≠ 0 := by exact_mod_cast NeZero.ne W
    field_simp
    ring
  · rintro ⟨w, hw⟩
    obtain ⟨hM, hm⟩ := profile_sup_inf f c s (by omega) hin w
    rw [hM, hm] at hw
    exact hlt.ne' hw

end

/-! ## C215 -/

/-- **C215 (partial).** Vertical pre-alignment: if the intensity of the rows, summed over the columns, is that of an object on a constant background that is moved by
`-s w` rows at angle `w` and never touches the first or the last row, the shifts are exactly `s w`, up to a common constant that makes their mean
zero, and rounding - for every object with the derivative, for every one above the background without. With the real transform (the default) the number of
rows must be odd with the derivative and even without; otherwise see `C215_even_rows_violated`. -/
theorem C215_vertical_shifts_partial {D V W U : ℕ} [NeZero W] (hD : 0 < D) (hU : 0 < U) (hV : 2 ≤ V) (deriv rfft norm : Bool) (eps : ℝ) (he : 0 < eps)
    (data : Fin D → Fin V → Fin W → Fin U → ℝ) (f : ℤ → ℝ) (c : ℝ) (s : Fin W → ℤ)
    (hdata : ∀ v w, ∑ d, ∑ u, data d v w u = f ((v : ℕ) + s w))
    (hin : ∀ k, f k ≠ c → ∀ w, 1 ≤ k - s w ∧ k - s w ≤ (V : ℤ) - 2) (hne : ∃ k, f k ≠ c) (hbase : deriv = false → ∀ k, c ≤ f k)
    (hr : rfft = true → (deriv = true → Odd V) ∧ (deriv = false → Even V)) (r : Fin W) (href : (r : ℕ) = W / 2) (maxShift : ℝ)
    (hmax : ∀ w, |(s w : ℝ) - s r| ≤ maxShift) (d : ℕ) :
    fitV deriv rfft norm eps data none maxShift d = some fun w => around d (s w - (∑ i, (s i : ℝ)) / W) := by
  have hDU : (0 : ℝ) < D * U := by positivity
  have hq : vProfile data none = fun w (v : Fin V) => (fun k => f k / (D * U)) ((v : ℕ) + s w) := by
    funext w v
    unfold vProfile
    simp only
    rw [← hdata, ← Finset.sum_div, div_div, mul_comm (U : ℝ)]
  unfold fitV
  rw [hq]
  have hdiv : ∀ k, f k / (D * U) ≠ c / (D * U) → f k ≠ c := fun k h1 h2 => h1 (by rw [h2])
  refine fitVProfiles_moved (fun k => f k / (D * U)) (c / (D * U)) s hV deriv rfft norm eps he (fun k hk => hin k (hdiv k hk)) ?_ ?_ ?_ r href maxShift hmax d
  · obtain ⟨k, hk⟩ := hne
    exact ⟨k, fun h => hk ((div_left_inj' hDU.ne').1 h)⟩
  · intro h k
    exact div_le_div_of_nonneg_right (hbase h k) hDU.le
  · intro h
    unfold vLength
    cases deriv with
    | true =>
      obtain ⟨k, hk⟩ := (hr h).1 rfl
      simp only [if_true]
      exact ⟨k + V / 2, by omega⟩
    | false =>
      obtain ⟨k, hk⟩ := (hr h).2 rfl
      simp only [Bool.false_eq_true, if_false]
      exact ⟨k + V / 2, by omega⟩

/-- Non-vacuity: a detector of 5 rows and 2 columns, three angles, an object of two rows on a background, moved by one row. -/
example : ∃ (data : Fin 1 → Fin 5 → Fin 3 → Fin 2 → ℝ) (f : ℤ → ℝ) (s : Fin 3 → ℤ), (∀ v w, ∑ d, ∑ u, data d v w u = f ((v : ℕ) + s w)) ∧
    (∀ k, f k ≠ 1 → ∀ w, 1 ≤ k - s w ∧ k - s w ≤ ((5 : ℕ) : ℤ) - 2) ∧ (∃ k, f k ≠ 1) ∧ s 0 ≠ s 1 := by
  refine ⟨fun _ v w u => if u = 0 then (if ((v : ℕ) : ℤ) + (if w = 0 then 1 else 0) = 2 then 3 else if ((v : ℕ) : ℤ) + (if w = 0 then 1 else 0) = 3 then 4 else 1)
    else 0, fun k => if k = 2 then 3 else if k = 3 then 4 else 1, fun w => if w = 0 then 1 else 0, ?_, ?_, ⟨2, by norm_num⟩, by simp⟩
  · intro v w
    simp
  · intro k hk w
    by_cases h2 : k = 2
    · subst h2; dsimp only; split_ifs <;> norm_num
    · by_cases h3 : k = 3
      · subst h3; dsimp only; split_ifs <;> norm_num
      · simp [h2, h3] at hk

/-- **C215.** Changes of the intensity of whole projections do not change the shifts: neither a positive factor nor an offset per angle. Data of one row are refused. -/
theorem C215_intensity {D V W U : ℕ} [NeZero W] (hD : 0 < D) (hU : 0 < U) (deriv rfft norm : Bool) (eps : ℝ) (data : Fin D → Fin V → Fin W → Fin U → ℝ)
    (maxShift : ℝ) (d : ℕ) :
    (∀ a b : Fin W → ℝ, (∀ w, 0 < a w) →
      fitV deriv rfft norm eps (fun i v w u => a w * data i v w u + b w) none maxShift d = fitV deriv rfft norm eps data none maxShift d) ∧
    (V ≤ 1 → fitV deriv rfft norm eps data none maxShift d = none) := by
  refine ⟨fun a b ha => ?_, fun hV => by unfold fitV fitVProfiles; rw [dif_pos hV]⟩
  unfold fitV
  by_cases hV : V ≤ 1
  · unfold fitVProfiles; rw [dif_pos hV, dif_pos hV]
  have : Nonempty (Fin V) := ⟨⟨0, by omega⟩⟩
  have hD' : (D : ℝ) ≠ 0 := by positivity
  have hU' : (U : ℝ) ≠ 0 := by positivity
  have hq : ∀ w v, vProfile (fun i v w u => a w * data i v w u + b w) none w v = a w * vProfile data none w v + b w := by
    intro w v
    unfold vProfile
    simp only [Finset.sum_add_distrib, ← Finset.mul_sum, Finset.sum_const, Finset.card_univ, Fintype.card_fin, nsmul_eq_mul, ← Finset.sum_div]
    field_simp
  have hsup : ∀ w, (⨆ k, vProfile (fun i v w u => a w * data i v w u + b w) none w k) = a w * (⨆ k, vProfile data none w k) + b w := by
    intro w
    simp only [hq]
    have h1 : Monotone fun x : ℝ => a w * x + b w := fun x y h => by have := mul_le_mul_of_nonneg_left h (ha w).le; simpa using this
    exact (Monotone.map_ciSup_of_continuousAt (f := fun x : ℝ => a w * x + b w) (by fun_prop) h1 (Set.finite_range _).bddAbove).symm
  have hinf : ∀ w, (⨅ k, vProfile (fun i v w u => a w * data i v w u + b w) none w k) = a w * (⨅ k, vProfile data none w k) + b w := by
    intro w
    simp only [hq]
    have h1 : Monotone fun x : ℝ => a w * x + b w := fun x y h => by have := mul_le_mul_of_nonneg_left h (ha w).le; simpa using this
    exact (Monotone.map_ciInf_of_continuousAt (f := fun x : ℝ => a w * x + b w) (by fun_prop) h1 (Set.finite_range _).bddBelow).symm
  have hnorm : ∀ w, vNormalise (vProfile (fun i v w u => a w * data i v w u + b w) none w) = vNormalise (vProfile data none w) := by
    intro w
    funext v
    unfold vNormalise
    rw [hsup, hinf, hq, show a w * vProfile data none w v + b w - (a w * (⨅ k, vProfile data none w k) + b w) =
      a w * (vProfile data none w v - ⨅ k, vProfile data none w k) by ring,
      show a w * (⨆ k, vProfile data none w k) + b w - (a w * (⨅ k, vProfile data none w k) + b w) =
      a w * ((⨆ k, vProfile data none w k) - ⨅ k, vProfile data none w k) by ring, mul_div_mul_left _ _ (ha w).ne']
  have hflat : (∃ w, (⨆ k, vProfile (fun i v w u => a w * data i v w u + b w) none w k) = ⨅ k, vProfile (fun i v w u => a w * data i v w u + b w) none w k) ↔
      ∃ w, (⨆ k, vProfile data none w k) = ⨅ k, vProfile data none w k := by
    refine exists_congr fun w => ?_
    rw [hsup, hinf]
    constructor
    · intro h
      exact mul_left_cancel₀ (ha w).ne' (by linarith)
    · intro h
      rw [h]
  unfold fitVProfiles
  simp only [hnorm, hflat]

/-- **C215 (masks).** Masked pixels have no effect on the shifts; a mask that keeps all pixels has none either. -/
theorem C215_masks {D V W U : ℕ} [NeZero W] (hU : 0 < U) (deriv rfft norm : Bool) (eps : ℝ) (data data' mask : Fin D → Fin V → Fin W → Fin U → ℝ) (maxShift : ℝ) (d : ℕ) :
    ((∀ i v w u, mask i v w u ≠ 0 → data i v w u = data' i v w u) →
      fitV deriv rfft norm eps data (some mask) maxShift d = fitV deriv rfft norm eps data' (some mask) maxShift d) ∧
    fitV deriv rfft norm eps data (some fun _ _ _ _ => 1) maxShift d = fitV deriv rfft norm eps data none maxShift d := by
  constructor
  · intro h
    unfold fitV
    congr 1
    funext w v
    unfold vProfile
    simp only
    have : ∀ i, ∑ u, data i v w u * mask i v w u = ∑ u, data' i v w u * mask i v w u := fun i => Finset.sum_congr rfl fun u _ => by
      by_cases hm : mask i v w u = 0
      · rw [hm, mul_zero, mul_zero]
      · rw [h i v w u hm]
    simp only [this]
  · unfold fitV
    congr 1
    funext w v
    unfold vProfile
    have : (U : ℝ) ≠ 0 := by positivity
    simp [this]

/-! ### Even numbers of rows -/

private theorem cos_seventh : ∃ c s : ℝ, Complex.exp (2 * Real.pi * I / 7) = ⟨c, s⟩ ∧ 623 / 1000 < c ∧ c < 624 / 1000 ∧ 781 / 1000 < s ∧ s < 783 / 1000 ∧ c ^ 2 + s ^ 2 = 1 := by
  set t : ℝ := 2 * Real.pi / 7 with ht
  have hpi := Real.pi_pos
  have h1 : 1 / 2 < Real.cos t := by
    rw [← Real.cos_pi_div_three]
    exact Real.cos_lt_cos_of_nonneg_of_le_pi (by positivity) (by linarith) (by linarith)
  have h2 : Real.cos t < 1 := by
    rw [← Real.cos_zero]
    exact Real.cos_lt_cos_of_nonneg_of_le_pi le_rfl (by linarith) (by positivity)
  have hs : 0 < Real.sin t := Real.sin_pos_of_pos_of_lt_pi (by positivity) (by linarith)
  have h34 : Real.cos (3 * t) = Real.cos (2 * (2 * t)) := by
    rw [← Real.cos_two_pi_sub (3 * t)]
    congr 1
    rw [ht]; ring
  rw [Real.cos_three_mul, Real.cos_two_mul, Real.cos_two_mul] at h34
  have hcs := Real.cos_sq_add_sin_sq t
  set c := Real.cos t
  set s := Real.sin t
  have hp : 8 * c ^ 3 + 4 * c ^ 2 - 4 * c - 1 = 0 := by
    have : (c - 1) * (8 * c ^ 3 + 4 * c ^ 2 - 4 * c - 1) = 0 := by linear_combination -h34
    rcases mul_eq_zero.1 this with h | h
    · linarith
    · exact h
  have hc1 : 623 / 1000 < c := by
    by_contra h
    push Not at h
    nlinarith [mul_nonneg (sub_nonneg.2 h) (sub_nonneg.2 h1.le), mul_nonneg (mul_nonneg (sub_nonneg.2 h) (sub_nonneg.2 h1.le)) (sub_nonneg.2 h1.le)]
  have hc2 : c < 624 / 1000 := by
    by_contra h
    push Not at h
    nlinarith [mul_nonneg (sub_nonneg.2 h) (sub_nonneg.2 h2.le), mul_nonneg (sub_nonneg.2 h) (sub_nonneg.2 h), mul_nonneg (mul_nonneg (sub_nonneg.2 h) (sub_nonneg.2 h)) (sub_nonneg.2 h)]
  refine ⟨c, s, ?_, hc1, hc2, ?_, ?_, hcs⟩
  · have : (2 * Real.pi * I / 7 : ℂ) = (t : ℂ) * I := by rw [ht]; push_cast; ring
    rw [this]
    apply Complex.ext
    · rw [Complex.exp_ofReal_mul_I_re]
    · rw [Complex.exp_ofReal_mul_I_im]
  · nlinarith
  · nlinarith

private theorem sixth_root : Complex.exp (2 * Real.pi * I / 6) = ⟨1 / 2, Real.sqrt 3 / 2⟩ := by
  have : (2 * Real.pi * I / 6 : ℂ) = ((Real.pi / 3 : ℝ) : ℂ) * I := by push_cast; ring
  rw [this]
  apply Complex.ext
  · rw [Complex.exp_ofReal_mul_I_re, Real.cos_pi_div_three]
  · rw [Complex.exp_ofReal_mul_I_im, Real.sin_pi_div_three]

/-- The six values of `irfft` of the four frequencies of seven samples. -/
private theorem irfft_seven (Y : ℕ → ℂ) (b : ℕ) : irfftDefault 7 Y b =
    ((Y 0).re + (-1) ^ b * (Y 3).re + 2 * ((Y 1 * (⟨1 / 2, Real.sqrt 3 / 2⟩ : ℂ) ^ b).re + (Y 2 * (⟨1 / 2, Real.sqrt 3 / 2⟩ : ℂ) ^ (2 * b)).re)) / 6 := by
  unfold irfftDefault
  rw [← sixth_root]
  have e : ∀ l : ℕ, Complex.exp (2 * Real.pi * I * ((l * b : ℕ) : ℂ) / ((2 * (7 / 2) : ℕ) : ℂ)) = Complex.exp (2 * Real.pi * I / 6) ^ (l * b) := by
    intro l
    rw [← Complex.exp_nat_mul]
    congr 1
    push_cast
    norm_num
    ring
  simp only [e]
  norm_num [Finset.sum_Ico_succ_top]
  ring

private theorem six_values (Y : ℕ → ℂ) (h0 : (Y 0).re = 0) :
    irfftDefault 7 Y 0 = ((Y 3).re + 2 * (Y 1).re + 2 * (Y 2).re) / 6 ∧
    irfftDefault 7 Y 1 = (-(Y 3).re + (Y 1).re - (Y 1).im * Real.sqrt 3 - (Y 2).re - (Y 2).im * Real.sqrt 3) / 6 ∧
    irfftDefault 7 Y 2 = ((Y 3).re - (Y 1).re - (Y 1).im * Real.sqrt 3 - (Y 2).re + (Y 2).im * Real.sqrt 3) / 6 ∧
    irfftDefault 7 Y 3 = (-(Y 3).re - 2 * (Y 1).re + 2 * (Y 2).re) / 6 ∧
    irfftDefault 7 Y 4 = ((Y 3).re - (Y 1).re + (Y 1).im * Real.sqrt 3 - (Y 2).re - (Y 2).im * Real.sqrt 3) / 6 ∧
    irfftDefault 7 Y 5 = (-(Y 3).re + (Y 1).re + (Y 1).im * Real.sqrt 3 - (Y 2).re + (Y 2).im * Real.sqrt 3) / 6 := by
  have hq : Real.sqrt 3 * Real.sqrt 3 = 3 := Real.mul_self_sqrt (by norm_num)
  set q := Real.sqrt 3
  have e2 : (⟨1 / 2, q / 2⟩ : ℂ) ^ 2 = ⟨-1 / 2, q / 2⟩ := by
    rw [sq]; apply Complex.ext
    · simp only [Complex.mul_re]; linear_combination -hq / 4
    · simp only [Complex.mul_im]; ring
  have e4 : (⟨1 / 2, q / 2⟩ : ℂ) ^ 4 = ⟨-1 / 2, -q / 2⟩ := by
    rw [show (4 : ℕ) = 2 + 2 from rfl, pow_add, e2]; apply Complex.ext
    · simp only [Complex.mul_re]; linear_combination -hq / 4
    · simp only [Complex.mul_im]; ring
  have e3 : (⟨1 / 2, q / 2⟩ : ℂ) ^ 3 = ⟨-1, 0⟩ := by
    rw [show (3 : ℕ) = 2 + 1 from rfl, pow_add, e2, pow_one]; apply Complex.ext
    · simp only [Complex.mul_re]; linear_combination -hq / 4
    · simp only [Complex.mul_im]; ring
  have e5 : (⟨1 / 2, q / 2⟩ : ℂ) ^ 5 = ⟨1 / 2, -q / 2⟩ := by
    rw [show (5 : ℕ) = 2 + 3 from rfl, pow_add, e2, e3]; apply Complex.ext
    · simp only [Complex.mul_re]; ring
    · simp only [Complex.mul_im]; ring
  have e6 : (⟨1 / 2, q / 2⟩ : ℂ) ^ 6 = 1 := by
    rw [show (6 : ℕ) = 3 + 3 from rfl, pow_add, e3]; apply Complex.ext
    · simp only [Complex.mul_re, Complex.one_re]; ring
    · simp only [Complex.mul_im, Complex.one_im]; ring
  have e8 : (⟨1 / 2, q / 2⟩ : ℂ) ^ 8 = ⟨-1 / 2, q / 2⟩ := by rw [show (8 : ℕ) = 6 + 2 from rfl, pow_add, e6, e2, one_mul]
  have e10 : (⟨1 / 2, q / 2⟩ : ℂ) ^ 10 = ⟨-1 / 2, -q / 2⟩ := by rw [show (10 : ℕ) = 6 + 4 from rfl, pow_add, e6, e4, one_mul]
  refine ⟨?_, ?_, ?_, ?_, ?_, ?_⟩ <;> rw [irfft_seven, h0]
  · simp; ring
  · rw [show 2 * 1 = 2 from rfl, e2, pow_one, pow_one, Complex.mul_re, Complex.mul_re]; simp only; ring
  · rw [show 2 * 2 = 4 from rfl, e4, e2, Complex.mul_re, Complex.mul_re]; simp only; ring
  · rw [show 2 * 3 = 6 from rfl, e6, e3, Complex.mul_re, Complex.mul_re]; simp only [Complex.one_re, Complex.one_im]; ring
  · rw [show 2 * 4 = 8 from rfl, e8, e4, Complex.mul_re, Complex.mul_re]; simp only; ring
  · rw [show 2 * 5 = 10 from rfl, e10, e5, Complex.mul_re, Complex.mul_re]; simp only; ring

/-- The row of the derivative of one bright detector row. -/
private noncomputable def edgeRow (a : ℕ) : ZMod 7 → ℝ := fun i => (if i.val = a then 1 else 0) - (if i.val = a + 1 then 1 else 0)

private theorem char_seven (k : ℕ) : (stdAddChar ((k : ℕ) : ZMod 7) : ℂ) = Complex.exp (2 * Real.pi * I / 7) ^ k := by
  have e := stdAddChar_coe (N := 7) (k : ℤ)
  rw [← Complex.exp_nat_mul]
  push_cast at e ⊢
  rw [e]
  congr 1
  ring

private theorem fft_edge (a : ℕ) (ha : a < 6) (l : ZMod 7) :
    fft2 (m := 1) (fun _ => edgeRow a) 0 l = stdAddChar (-(l * (a : ZMod 7))) - stdAddChar (-(l * ((a + 1 : ℕ) : ZMod 7))) := by
  unfold fft2 edgeRow
  rw [Fintype.sum_subsingleton _ (0 : ZMod 1)]
  have hval : ∀ (b : ℕ), b < 7 → ∀ i : ZMod 7, i.val = b ↔ i = (b : ZMod 7) := by
    intro b hb i
    constructor
    · intro h; rw [← h, ZMod.natCast_zmod_val]
    · intro h; rw [h, ZMod.val_natCast_of_lt hb]
  simp only [hval a (by omega), hval (a + 1) (by omega)]
  have hite : ∀ p : Prop, ∀ _ : Decidable p, (((if p then (1 : ℝ) else 0 : ℝ)) : ℂ) = if p then 1 else 0 := fun p _ => by split_ifs <;> simp
  simp only [Complex.ofReal_sub, hite, sub_mul, Finset.sum_sub_distrib, ite_mul, one_mul, zero_mul, Finset.sum_ite_eq', Finset.mem_univ, if_true, neg_zero,
    AddChar.map_zero_eq_one]

private theorem image_seven (a a' : ℕ) (b : ℕ) : xcImage (m := 1) true (fun _ => edgeRow a) (fun _ => edgeRow a') 0 b =
    irfftDefault 7 (fun l : ℕ => xcSpectrum (m := 1) (fun _ => edgeRow a) (fun _ => edgeRow a') 0 (l : ZMod 7)) b := by
  unfold xcImage
  simp only [if_true]
  congr 1
  funext l
  rw [Fintype.sum_subsingleton _ (0 : ZMod 1)]
  simp

/-- The row moved by one, and the row with itself. -/
private theorem spectrum_seven (l : ℕ) :
    xcSpectrum (m := 1) (fun _ => edgeRow 3) (fun _ => edgeRow 2) 0 (l : ZMod 7) =
      2 * starRingEnd ℂ (Complex.exp (2 * Real.pi * I / 7) ^ l) - 1 - starRingEnd ℂ (Complex.exp (2 * Real.pi * I / 7) ^ (2 * l)) ∧
    xcSpectrum (m := 1) (fun _ => edgeRow 3) (fun _ => edgeRow 3) 0 (l : ZMod 7) =
      2 - Complex.exp (2 * Real.pi * I / 7) ^ l - starRingEnd ℂ (Complex.exp (2 * Real.pi * I / 7) ^ l) := by
  unfold xcSpectrum
  rw [fft_edge 3 (by norm_num), fft_edge 2 (by norm_num), ← char_seven, ← char_seven, conj_char, conj_char]
  simp only [map_sub, conj_char, neg_neg, mul_sub, sub_mul, ← AddChar.map_add_eq_mul]
  constructor
  · have e1 : -((l : ZMod 7) * (3 : ℕ)) + (l : ZMod 7) * (2 : ℕ) = -((l : ℕ) : ZMod 7) := by push_cast; ring
    have e2 : -((l : ZMod 7) * (3 : ℕ)) + (l : ZMod 7) * ((2 + 1 : ℕ) : ZMod 7) = 0 := by push_cast; ring
    have e3 : -((l : ZMod 7) * ((3 + 1 : ℕ) : ZMod 7)) + (l : ZMod 7) * (2 : ℕ) = -((2 * l : ℕ) : ZMod 7) := by push_cast; ring
    have e4 : -((l : ZMod 7) * ((3 + 1 : ℕ) : ZMod 7)) + (l : ZMod 7) * ((2 + 1 : ℕ) : ZMod 7) = -((l : ℕ) : ZMod 7) := by push_cast; ring
    rw [e1, e2, e3, e4, AddChar.map_zero_eq_one]
    ring
  · have e1 : -((l : ZMod 7) * (3 : ℕ)) + (l : ZMod 7) * (3 : ℕ) = 0 := by push_cast; ring
    have e2 : -((l : ZMod 7) * (3 : ℕ)) + (l : ZMod 7) * ((3 + 1 : ℕ) : ZMod 7) = (l : ℕ) := by push_cast; ring
    have e3 : -((l : ZMod 7) * ((3 + 1 : ℕ) : ZMod 7)) + (l : ZMod 7) * (3 : ℕ) = -((l : ℕ) : ZMod 7) := by push_cast; ring
    have e4 : -((l : ZMod 7) * ((3 + 1 : ℕ) : ZMod 7)) + (l : ZMod 7) * ((3 + 1 : ℕ) : ZMod 7) = 0 := by push_cast; ring
    rw [e1, e2, e3, e4, AddChar.map_zero_eq_one]
    ring

/-- Bounds of the powers of the seventh root. -/
private theorem powers_seven : ∃ c1 s1 c2 s2 c3 s3 c4 s4 : ℝ, Complex.exp (2 * Real.pi * I / 7) ^ 1 = ⟨c1, s1⟩ ∧ Complex.exp (2 * Real.pi * I / 7) ^ 2 = ⟨c2, s2⟩ ∧
    Complex.exp (2 * Real.pi * I / 7) ^ 3 = ⟨c3, s3⟩ ∧ Complex.exp (2 * Real.pi * I / 7) ^ 4 = ⟨c4, s4⟩ ∧ (Complex.exp (2 * Real.pi * I / 7) ^ 6).re = c1 ∧
    (623 / 1000 < c1 ∧ c1 < 624 / 1000) ∧ (781 / 1000 < s1 ∧ s1 < 783 / 1000) ∧ (-224 / 1000 < c2 ∧ c2 < -221 / 1000) ∧ (973 / 1000 < s2 ∧ s2 < 978 / 1000) ∧
    (-906 / 1000 < c3 ∧ c3 < -896 / 1000) ∧ (-906 / 1000 < c4 ∧ c4 < -896 / 1000) ∧ (-439 / 1000 < s4 ∧ s4 < -430 / 1000) := by
  obtain ⟨c, s, he, h1, h2, h3, h4, h5⟩ := cos_seventh
  have hz7 : Complex.exp (2 * Real.pi * I / 7) ^ 7 = 1 := by
    rw [← Complex.exp_nat_mul, show ((7 : ℕ) : ℂ) * (2 * Real.pi * I / 7) = 2 * Real.pi * I by push_cast; ring, Complex.exp_two_pi_mul_I]
  have hc2 : c ^ 2 - s ^ 2 = 2 * c ^ 2 - 1 := by linarith
  have b1 : -224 / 1000 < c ^ 2 - s ^ 2 := by rw [hc2]; nlinarith
  have b2 : c ^ 2 - s ^ 2 < -221 / 1000 := by rw [hc2]; nlinarith
  have b3 : 973 / 1000 < 2 * c * s := by nlinarith
  have b4 : 2 * c * s < 978 / 1000 := by nlinarith
  refine ⟨c, s, c ^ 2 - s ^ 2, 2 * c * s, c * (c ^ 2 - s ^ 2) - s * (2 * c * s), s * (c ^ 2 - s ^ 2) + c * (2 * c * s),
    (c ^ 2 - s ^ 2) ^ 2 - (2 * c * s) ^ 2, 2 * (c ^ 2 - s ^ 2) * (2 * c * s), by rw [pow_one, he], ?_, ?_, ?_, ?_, ⟨h1, h2⟩, ⟨h3, h4⟩, ⟨b1, b2⟩, ⟨b3, b4⟩,
    ⟨?_, ?_⟩, ⟨?_, ?_⟩, ⟨?_, ?_⟩⟩
  · rw [he, sq]; apply Complex.ext
    · simp only [Complex.mul_re]; ring
    · simp only [Complex.mul_im]; ring
  · rw [he, pow_succ, sq]; apply Complex.ext
    · simp only [Complex.mul_re, Complex.mul_im]; ring
    · simp only [Complex.mul_re, Complex.mul_im]; ring
  · rw [he, show (4 : ℕ) = 2 + 2 from rfl, pow_add, sq]; apply Complex.ext
    · simp only [Complex.mul_re, Complex.mul_im]; ring
    · simp only [Complex.mul_re, Complex.mul_im]; ring
  · have hinv : Complex.exp (2 * Real.pi * I / 7) ^ 6 = (Complex.exp (2 * Real.pi * I / 7))⁻¹ := by
      exact eq_inv_of_mul_eq_one_left (by rw [← pow_succ]; exact hz7)
    rw [hinv, he, Complex.inv_re, Complex.normSq_mk, show c * c + s * s = 1 by linarith]
    simp
  · nlinarith
  · nlinarith
  · nlinarith
  · nlinarith
  · nlinarith
  · nlinarith

private theorem sqrt3_bounds : 173 / 100 < Real.sqrt 3 ∧ Real.sqrt 3 < 174 / 100 :=
  ⟨by rw [Real.lt_sqrt] <;> norm_num, by rw [Real.sqrt_lt'] <;> norm_num⟩

private theorem argmin_six (f : ℕ → ℝ) (p : ℕ) (hp : p < 6) (h : ∀ i < 6, i ≠ p → f i < f p) : argmin (fun i => -f i) 6 = p := by
  obtain ⟨h1, h2, -⟩ := argmin_spec (fun i => -f i) 6 (by norm_num)
  by_contra hne
  have h3 := h2 p hp
  have h4 := h _ h1 hne
  linarith

private theorem refine_value (y0 y1 y2 : ℝ) (d : ℕ) (hy : y0 - 2 * y1 + y2 ≠ 0) (hv : |(y0 - y2) / (2 * (y0 - 2 * y1 + y2))| ≤ 1 / 10) (hd : 1 ≤ d) :
    refineMax3 y0 y1 y2 d = some (around d ((y0 - y2) / (2 * (y0 - 2 * y1 + y2)))) := by
  have ha : (parab3 (-1) 0 1 y0 y1 y2).a = (y0 - 2 * y1 + y2) / 2 := by unfold parab3; simp only; ring
  have hb : (parab3 (-1) 0 1 y0 y1 y2).b = (y2 - y0) / 2 := by unfold parab3; simp only; ring
  have hvx : (parab3 (-1) 0 1 y0 y1 y2).vertex = (y0 - y2) / (2 * (y0 - 2 * y1 + y2)) := by
    unfold Parab.vertex
    rw [ha, hb]
    field_simp
    ring
  unfold refineMax3
  simp only
  rw [hvx, ha, if_pos]
  have he := around_error d ((y0 - y2) / (2 * (y0 - 2 * y1 + y2)))
  have h10 : (1 : ℝ) / (2 * 10 ^ d) ≤ 1 / 2 := by
    rw [div_le_div_iff₀ (by positivity) (by norm_num)]
    have : (1 : ℝ) ≤ 10 ^ d := one_le_pow₀ (by norm_num)
    linarith
  rw [abs_le] at he hv
  exact ⟨div_ne_zero hy two_ne_zero, by linarith, by linarith⟩

/-- The peak of the correlation of the moved row, from bounds of its spectrum. -/
private theorem moved_peak (y : ℕ → ℝ) (x1 x2 x3 P1 P2 : ℝ) (h1 : 467 / 1000 < x1 ∧ x1 < 473 / 1000) (h2 : -553 / 1000 < x2 ∧ x2 < -535 / 1000)
    (h3 : -3437 / 1000 < x3 ∧ x3 < -3414 / 1000) (p1 : -1034 / 1000 < P1 ∧ P1 < -1009 / 1000) (p2 : -4169 / 1000 < P2 ∧ P2 < -4109 / 1000)
    (v0 : y 0 = (x3 + 2 * x1 + 2 * x2) / 6) (v1 : y 1 = (-x3 + x1 - P1 - x2 - P2) / 6) (v2 : y 2 = (x3 - x1 - P1 - x2 + P2) / 6)
    (v3 : y 3 = (-x3 - 2 * x1 + 2 * x2) / 6) (v4 : y 4 = (x3 - x1 + P1 - x2 - P2) / 6) (v5 : y 5 = (-x3 + x1 + P1 - x2 + P2) / 6) :
    argmin (fun i => -y i) 6 = 1 ∧ ∃ t, refineMax3 (y 0) (y 1) (y 2) 2 = some t ∧ -1 / 10 < t ∧ t < -2 / 100 := by
  constructor
  · refine argmin_six _ 1 (by norm_num) fun i hi hne => ?_
    rw [v1]
    interval_cases i
    · rw [v0]; linarith
    · exact absurd rfl hne
    · rw [v2]; linarith
    · rw [v3]; linarith
    · rw [v4]; linarith
    · rw [v5]; linarith
  · have hden : y 0 - 2 * y 1 + y 2 < -4 := by rw [v0, v1, v2]; linarith
    have hden' : -6 < y 0 - 2 * y 1 + y 2 := by rw [v0, v1, v2]; linarith
    have hn1 : 4 / 10 < y 0 - y 2 := by rw [v0, v2]; linarith
    have hn2 : y 0 - y 2 < 6 / 10 := by rw [v0, v2]; linarith
    have hvl : -8 / 100 < (y 0 - y 2) / (2 * (y 0 - 2 * y 1 + y 2)) := by
      rw [lt_div_iff_of_neg (by linarith)]
      linarith
    have hvu : (y 0 - y 2) / (2 * (y 0 - 2 * y 1 + y 2)) < -3 / 100 := by
      rw [div_lt_iff_of_neg (by linarith)]
      linarith
    have herr := around_error 2 ((y 0 - y 2) / (2 * (y 0 - 2 * y 1 + y 2)))
    rw [abs_le] at herr
    norm_num at herr
    exact ⟨_, refine_value (y 0) (y 1) (y 2) 2 (by linarith) (by rw [abs_le]; constructor <;> linarith) (by norm_num), by linarith, by linarith⟩

private theorem auto_peak (y : ℕ → ℝ) (x1 x2 x3 q : ℝ) (h1 : 750 / 1000 < x1 ∧ x1 < 756 / 1000) (h2 : 2440 / 1000 < x2 ∧ x2 < 2450 / 1000)
    (h3 : 3790 / 1000 < x3 ∧ x3 < 3814 / 1000)
    (v0 : y 0 = (x3 + 2 * x1 + 2 * x2) / 6) (v1 : y 1 = (-x3 + x1 - 0 * q - x2 - 0 * q) / 6) (v2 : y 2 = (x3 - x1 - 0 * q - x2 + 0 * q) / 6)
    (v3 : y 3 = (-x3 - 2 * x1 + 2 * x2) / 6) (v4 : y 4 = (x3 - x1 + 0 * q - x2 - 0 * q) / 6) (v5 : y 5 = (-x3 + x1 + 0 * q - x2 + 0 * q) / 6) :
    argmin (fun i => -y i) 6 = 0 ∧ refineMax3 (y 5) (y 0) (y 1) 2 = some 0 := by
  constructor
  · refine argmin_six _ 0 (by norm_num) fun i hi hne => ?_
    rw [v0]
    interval_cases i
    · exact absurd rfl hne
    · rw [v1]; linarith
    · rw [v2]; linarith
    · rw [v3]; linarith
    · rw [v4]; linarith
    · rw [v5]; linarith
  · exact refine_symmetric _ _ _ _ (by rw [v5, v1]; ring) (by rw [v5, v0]; linarith)

/-- `vShift` from the values of the correlation. -/
private theorem vShift_seven (norm : Bool) (eps : ℝ) (he : 0 < eps) (a a' : ℕ) (y : ℕ → ℝ)
    (hy : ∀ b, xcImage (m := 1) true (fun _ => edgeRow a) (fun _ => edgeRow a') 0 b = y b) (p : ℕ) (hp : argmin (fun i => -y i) 6 = p) :
    vShift (L := 7) true norm eps (edgeRow a) (edgeRow a') 2 = (refineMax3 (y ((p + 6 - 1) % 6)) (y p) (y ((p + 1) % 6)) 2).map fun s : ℝ => s + ((fftfreq 6 p : ℤ) : ℝ) := by
  unfold vShift
  have hw : xcWidth true 7 = 6 := rfl
  simp only [hw, hy]
  generalize hs : (if norm = true then max (⨆ l : Fin (if true = true then 7 / 2 + 1 else 7), ‖xcSpectrum (m := 1) (fun _ => edgeRow a) (fun _ => edgeRow a') 0 ((l : ℕ) : ZMod 7)‖) eps
      else 1) = sc
  have hsc : 0 < sc := by
    rw [← hs]
    by_cases hn : norm = true
    · rw [if_pos hn]; exact lt_max_of_lt_right he
    · rw [if_neg hn]; norm_num
  rw [argmin_scale _ _ hsc, hp, refineMax3_scale _ _ _ _ hsc]

private theorem neg_mul_bounds {u q lo hi A B : ℝ} (h1 : lo < u) (h2 : u < hi) (hq : 173 / 100 < q) (hq' : q < 174 / 100) (hneg : hi < 0) (hA : A ≤ lo * (174 / 100))
    (hB : hi * (173 / 100) ≤ B) : A < u * q ∧ u * q < B := by
  constructor <;> nlinarith

private theorem seven_shift (norm : Bool) (eps : ℝ) (he : 0 < eps) :
    (∃ t, vShift (L := 7) true norm eps (edgeRow 3) (edgeRow 2) 2 = some t ∧ 9 / 10 < t ∧ t < 98 / 100) ∧
    vShift (L := 7) true norm eps (edgeRow 3) (edgeRow 3) 2 = some 0 := by
  obtain ⟨c1, s1, c2, s2, c3, s3, c4, s4, z1, z2, z3, z4, z6, ⟨hc1, hc1'⟩, ⟨hs1, hs1'⟩, ⟨hc2, hc2'⟩, ⟨hs2, hs2'⟩, ⟨hc3, hc3'⟩, ⟨hc4, hc4'⟩, ⟨hs4, hs4'⟩⟩ := powers_seven
  obtain ⟨hq, hq'⟩ := sqrt3_bounds
  constructor
  · obtain ⟨Y, hY⟩ : ∃ Y : ℕ → ℂ, Y = fun l : ℕ => xcSpectrum (m := 1) (fun _ => edgeRow 3) (fun _ => edgeRow 2) 0 (l : ZMod 7) := ⟨_, rfl⟩
    have hYl : ∀ l, Y l = 2 * starRingEnd ℂ (Complex.exp (2 * Real.pi * I / 7) ^ l) - 1 - starRingEnd ℂ (Complex.exp (2 * Real.pi * I / 7) ^ (2 * l)) :=
      fun l => by rw [hY]; exact (spectrum_seven l).1
    have r0 : (Y 0).re = 0 := by rw [hYl]; simp; norm_num
    have r1 : (Y 1).re = 2 * c1 - 1 - c2 := by rw [hYl, z1, show 2 * 1 = 2 from rfl, z2]; simp
    have i1 : (Y 1).im = -2 * s1 + s2 := by rw [hYl, z1, show 2 * 1 = 2 from rfl, z2]; simp
    have r2 : (Y 2).re = 2 * c2 - 1 - c4 := by rw [hYl, z2, show 2 * 2 = 4 from rfl, z4]; simp
    have i2 : (Y 2).im = -2 * s2 + s4 := by rw [hYl, z2, show 2 * 2 = 4 from rfl, z4]; simp
    have r3 : (Y 3).re = 2 * c3 - 1 - c1 := by
      rw [hYl, z3, show 2 * 3 = 6 from rfl]
      simp only [Complex.sub_re, Complex.one_re, Complex.conj_re, z6]
      simp
    obtain ⟨v0, v1, v2, v3, v4, v5⟩ := six_values Y r0
    rw [r1, r2, r3] at v0 v3
    rw [r1, r2, r3, i1, i2] at v1 v2 v4 v5
    have img : ∀ b, xcImage (m := 1) true (fun _ => edgeRow 3) (fun _ => edgeRow 2) 0 b = irfftDefault 7 Y b := by rw [hY]; exact image_seven 3 2
    obtain ⟨ham, t, ht, ht1, ht2⟩ := moved_peak (irfftDefault 7 Y) _ _ _ _ _ ⟨by linarith, by linarith⟩ ⟨by linarith, by linarith⟩ ⟨by linarith, by linarith⟩
      (neg_mul_bounds (lo := -593 / 1000) (hi := -584 / 1000) (by linarith) (by linarith) hq hq' (by norm_num) (by norm_num) (by norm_num))
      (neg_mul_bounds (lo := -2395 / 1000) (hi := -2376 / 1000) (by linarith) (by linarith) hq hq' (by norm_num) (by norm_num) (by norm_num)) v0 v1 v2 v3 v4 v5
    refine ⟨t + 1, ?_, by linarith, by linarith⟩
    rw [vShift_seven norm eps he 3 2 _ img 1 ham]
    show (refineMax3 (irfftDefault 7 Y 0) (irfftDefault 7 Y 1) (irfftDefault 7 Y 2) 2).map _ = _
    rw [ht]
    norm_num [fftfreq]
  · obtain ⟨Y, hY⟩ : ∃ Y : ℕ → ℂ, Y = fun l : ℕ => xcSpectrum (m := 1) (fun _ => edgeRow 3) (fun _ => edgeRow 3) 0 (l : ZMod 7) := ⟨_, rfl⟩
    have hYl : ∀ l, Y l = 2 - Complex.exp (2 * Real.pi * I / 7) ^ l - starRingEnd ℂ (Complex.exp (2 * Real.pi * I / 7) ^ l) :=
      fun l => by rw [hY]; exact (spectrum_seven l).2
    have r0 : (Y 0).re = 0 := by rw [hYl]; simp; norm_num
    have r1 : (Y 1).re = 2 - c1 - c1 := by rw [hYl, z1]; simp
    have i1 : (Y 1).im = 0 := by rw [hYl, z1]; simp
    have r2 : (Y 2).re = 2 - c2 - c2 := by rw [hYl, z2]; simp
    have i2 : (Y 2).im = 0 := by rw [hYl, z2]; simp
    have r3 : (Y 3).re = 2 - c3 - c3 := by rw [hYl, z3]; simp
    obtain ⟨v0, v1, v2, v3, v4, v5⟩ := six_values Y r0
    rw [r1, r2, r3] at v0 v3
    rw [r1, r2, r3, i1, i2] at v1 v2 v4 v5
    have img : ∀ b, xcImage (m := 1) true (fun _ => edgeRow 3) (fun _ => edgeRow 3) 0 b = irfftDefault 7 Y b := by rw [hY]; exact image_seven 3 3
    obtain ⟨ham, ht⟩ := auto_peak (irfftDefault 7 Y) _ _ _ _ ⟨by linarith, by linarith⟩ ⟨by linarith, by linarith⟩ ⟨by linarith, by linarith⟩ v0 v1 v2 v3 v4 v5
    rw [vShift_seven norm eps he 3 3 _ img 0 ham]
    show (refineMax3 (irfftDefault 7 Y 5) (irfftDefault 7 Y 0) (irfftDefault 7 Y 1) 2).map _ = _
    rw [ht]
    norm_num [fftfreq]

/-- **C215 (violated).** With the default options (derivative and real transform) the shifts are wrong for an even number of rows: the inverse transform has one sample
less than the profiles. Four rows, one bright row that moves by one. -/
theorem C215_even_rows_violated : ¬ ∀ (D V W U : ℕ) (_ : NeZero W) (eps : ℝ) (data : Fin D → Fin V → Fin W → Fin U → ℝ) (f : ℤ → ℝ) (c : ℝ) (s : Fin W → ℤ)
    (r : Fin W) (maxShift : ℝ) (d : ℕ), 0 < D → 0 < U → 2 ≤ V → 0 < eps → (∀ v w, ∑ d, ∑ u, data d v w u = f ((v : ℕ) + s w)) →
    (∀ k, f k ≠ c → ∀ w, 1 ≤ k - s w ∧ k - s w ≤ (V : ℤ) - 2) → (∃ k, f k ≠ c) → (∀ k, c ≤ f k) → (r : ℕ) = W / 2 → (∀ w, |(s w : ℝ) - s r| ≤ maxShift) →
    fitV true true true eps data none maxShift d = some fun w => around d (s w - (∑ i, (s i : ℝ)) / W) := by
  intro h
  let f : ℤ → ℝ := fun k => if k = 0 then 1 else 0
  let s : Fin 2 → ℤ := ![-1, -2]
  have hin : ∀ k, f k ≠ 0 → ∀ w, 1 ≤ k - s w ∧ k - s w ≤ ((4 : ℕ) : ℤ) - 2 := by
    intro k hk w
    have hk0 : k = 0 := by by_contra hc; simp [f, hc] at hk
    subst hk0
    fin_cases w <;> simp [s]
  have h1 := h 1 4 2 1 inferInstance 1 (fun _ v w _ => f ((v : ℕ) + s w)) f 0 s 1 2 2 one_pos one_pos (by norm_num) one_pos (by simp) hin ⟨0, by simp [f]⟩
    (fun k => by simp only [f]; split_ifs <;> norm_num) rfl (fun w => by fin_cases w <;> norm_num [s])
  have hq : vProfile (fun _ v w _ => f ((v : ℕ) + s w) : Fin 1 → Fin 4 → Fin 2 → Fin 1 → ℝ) none = fun w (v : Fin 4) => f ((v : ℕ) + s w) := by
    funext w v
    simp [vProfile]
  have hrange : Set.range f = {0, 1} := by
    ext y
    constructor
    · rintro ⟨k, rfl⟩
      by_cases hk : k = 0 <;> simp [f, hk]
    · rintro (rfl | rfl)
      · exact ⟨1, by simp [f]⟩
      · exact ⟨0, by simp [f]⟩
  have hsup : sSup (Set.range f) = 1 := by rw [hrange, csSup_pair]; norm_num
  have hinf : sInf (Set.range f) = 0 := by rw [hrange, csInf_pair]; norm_num
  have hrow : ∀ w : Fin 2, (fun i : ZMod 7 => vPadded true (vNormalise fun v : Fin 4 => f ((v : ℕ) + s w)) i.val) = edgeRow (1 - s w).toNat := by
    intro w
    funext i
    rw [padded_eq f 0 s (by norm_num) hin true (by simp) w i.val (ZMod.val_lt i)]
    unfold vContent edgeRow
    simp only [if_true, hsup, hinf, sub_zero, div_one, f]
    have hv0 : ((1 - s w).toNat : ℤ) = 1 - s w := by fin_cases w <;> simp [s]
    have e1 : ((i.val : ℤ) + s w - ((4 / 2 : ℕ) : ℤ) + 1 = 0) ↔ i.val = (1 - s w).toNat := by
      rw [← Int.natCast_inj, hv0]; norm_num; omega
    have e2 : ((i.val : ℤ) + s w - ((4 / 2 : ℕ) : ℤ) = 0) ↔ i.val = (1 - s w).toNat + 1 := by
      rw [← Int.natCast_inj, Nat.cast_add, hv0]; norm_num; omega
    simp only [e1, e2]
  obtain ⟨⟨t, ht, ht1, ht2⟩, h0⟩ := seven_shift true 1 one_pos
  have hs0 : vShift (L := 7) true true 1 (fun i : ZMod 7 => vPadded true (vNormalise fun v : Fin 4 => f ((v : ℕ) + s 1)) i.val)
      (fun i : ZMod 7 => vPadded true (vNormalise fun v : Fin 4 => f ((v : ℕ) + s 0)) i.val) 2 = some t := by
    rw [hrow, hrow]; exact ht
  have hs1 : vShift (L := 7) true true 1 (fun i : ZMod 7 => vPadded true (vNormalise fun v : Fin 4 => f ((v : ℕ) + s 1)) i.val)
      (fun i : ZMod 7 => vPadded true (vNormalise fun v : Fin 4 => f ((v : ℕ) + s 1)) i.val) 2 = some 0 := by
    rw [hrow]; exact h0
  have hfit : ∃ g : Fin 2 → ℝ, fitVProfiles true true true 1 (fun w (v : Fin 4) => f ((v : ℕ) + s w)) 2 2 = some g ∧ g 0 = around 2 (t - (t + 0) / 2) := by
    unfold fitVProfiles
    rw [dif_neg (by norm_num), if_neg]
    · have hall : ∀ w : Fin 2, (vShift (L := 7) true true 1 (fun i : ZMod 7 => vPadded true (vNormalise fun v : Fin 4 => f ((v : ℕ) + s 1)) i.val)
          (fun i : ZMod 7 => vPadded true (vNormalise fun v : Fin 4 => f ((v : ℕ) + s w)) i.val) 2).isSome := by
        intro w
        fin_cases w
        · exact Option.isSome_iff_exists.2 ⟨t, hs0⟩
        · exact Option.isSome_iff_exists.2 ⟨0, hs1⟩
      refine ⟨_, if_pos hall, ?_⟩
      simp only [Fin.sum_univ_two]
      have e0 : filterShift 2 ((vShift (L := 7) true true 1 (fun i : ZMod 7 => vPadded true (vNormalise fun v : Fin 4 => f ((v : ℕ) + s 1)) i.val)
          (fun i : ZMod 7 => vPadded true (vNormalise fun v : Fin 4 => f ((v : ℕ) + s 0)) i.val) 2).getD 0) = t := by
        rw [hs0, Option.getD_some]
        exact if_neg (by rw [abs_of_pos (by linarith)]; linarith)
      have e1 : filterShift 2 ((vShift (L := 7) true true 1 (fun i : ZMod 7 => vPadded true (vNormalise fun v : Fin 4 => f ((v : ℕ) + s 1)) i.val)
          (fun i : ZMod 7 => vPadded true (vNormalise fun v : Fin 4 => f ((v : ℕ) + s 1)) i.val) 2).getD 0) = 0 := by
        rw [hs1, Option.getD_some]
        exact if_neg (by norm_num)
      show around 2 (_ - (_ + _) / ((2 : ℕ) : ℝ)) = around 2 (t - (t + 0) / 2)
      have e0' := e0
      have e1' := e1
      rw [show (((2 : ℕ) : ℝ)) = 2 by norm_num]
      exact congrArg (around 2) (by
        refine congr_arg₂ (· - ·) e0' (congrArg (· / 2) (congr_arg₂ (· + ·) e0' e1')))
    · rintro ⟨w, hw⟩
      obtain ⟨hM, hm⟩ := profile_sup_inf f 0 s (by norm_num : 0 < 4) hin w
      rw [hM, hm, hsup, hinf] at hw
      norm_num at hw
  obtain ⟨g, hg, hg0⟩ := hfit
  unfold fitV at h1
  rw [hq, hg] at h1
  have h2 := congrFun (Option.some.inj h1) 0
  rw [hg0] at h2
  have e1 := around_error 2 (t - (t + 0) / 2)
  rw [h2] at e1
  have e2 := around_error 2 ((s 0 : ℝ) - (∑ i, (s i : ℝ)) / ((2 : ℕ) : ℝ))
  rw [abs_le] at e1 e2
  have e3 : ((s 0 : ℝ) - (∑ i, (s i : ℝ)) / ((2 : ℕ) : ℝ)) = 1 / 2 := by
    rw [Fin.sum_univ_two]; simp [s]; norm_num
  rw [e3] at e1 e2
  norm_num at e1 e2
  linarith

/-! ## C213: the refinement below the pixel -/

theorem refine_some {y0 y1 y2 t : ℝ} {d : ℕ} (h : refineMax3 y0 y1 y2 d = some t) :
    |t - (y0 - y2) / (2 * (y0 - 2 * y1 + y2))| ≤ 1 / (2 * 10 ^ d) := by
  have ha : (parab3 (-1) 0 1 y0 y1 y2).a = (y0 - 2 * y1 + y2) / 2 := by unfold parab3; simp only; ring
  have hb : (parab3 (-1) 0 1 y0 y1 y2).b = (y2 - y0) / 2 := by unfold parab3; simp only; ring
  unfold refineMax3 at h
  simp only at h
  split_ifs at h with hc
  have hy : y0 - 2 * y1 + y2 ≠ 0 := by
    intro h0
    exact hc.1 (by rw [ha, h0, zero_div])
  have hvx : (parab3 (-1) 0 1 y0 y1 y2).vertex = (y0 - y2) / (2 * (y0 - 2 * y1 + y2)) := by
    unfold Parab.vertex
    rw [ha, hb]
    field_simp
    ring
  rw [hvx] at h
  have h1 := Option.some.inj h
  rw [← h1]
  exact around_error d _

/-- **C213, refinement.** For all images: the shift that is found is, along each axis, the position of a largest correlation plus the vertex of the parabola through the
correlations before, at and after it along that axis, to the number of decimals asked for. -/
theorem C213_subpixel {m n : ℕ} [NeZero m] [NeZero n] (hn : 2 ≤ n) (rfft norm : Bool) (eps : ℝ) (data proj : ZMod m → ZMod n → ℝ) (d : ℕ) (hd : 1 ≤ d)
    (v u : ℝ) (h : fitShiftVUN rfft norm eps data proj d = some (v, u)) :
    let cc := xcVolume rfft norm eps (slice3 data) (slice3 proj) 0
    let w := xcWidth rfft n
    ∃ a b : ℕ, a < m ∧ b < w ∧ (∀ a' < m, ∀ b' < w, cc a' b' ≤ cc a b) ∧
      |v - (fftfreq m a + (cc ((a + m - 1) % m) b - cc ((a + 1) % m) b) / (2 * (cc ((a + m - 1) % m) b - 2 * cc a b + cc ((a + 1) % m) b)))| ≤ 1 / (2 * 10 ^ d) ∧
      |u - (fftfreq n b + (cc a ((b + w - 1) % w) - cc a ((b + 1) % w)) / (2 * (cc a ((b + w - 1) % w) - 2 * cc a b + cc a ((b + 1) % w))))| ≤ 1 / (2 * 10 ^ d) := by
  intro cc w
  have hw : 0 < w := by
    show 0 < xcWidth rfft n
    unfold xcWidth
    split_ifs <;> omega
  have hm : 0 < m := NeZero.pos m
  obtain ⟨h1, h2, -⟩ := argmin_spec (fun i => -cc (i / w) (i % w)) (m * w) (Nat.mul_pos hm hw)
  set q := argmin (fun i => -cc (i / w) (i % w)) (m * w) with hq
  refine ⟨q / w, q % w, Nat.div_lt_of_lt_mul (by rw [mul_comm]; exact h1), Nat.mod_lt _ hw, fun a' ha' b' hb' => ?_, ?_⟩
  · have hlt : a' * w + b' < m * w := by
      calc a' * w + b' < a' * w + w := by omega
        _ = (a' + 1) * w := by ring
        _ ≤ m * w := Nat.mul_le_mul_right w ha'
    have h3 := h2 (a' * w + b') hlt
    have e1 : (a' * w + b') / w = a' := by rw [mul_comm, Nat.mul_add_div hw, Nat.div_eq_of_lt hb', add_zero]
    have e2 : (a' * w + b') % w = b' := by rw [mul_comm, Nat.mul_add_mod, Nat.mod_eq_of_lt hb']
    simp only [e1, e2] at h3
    linarith
  · unfold fitShiftVUN at h
    have hd0 : d ≠ 0 := by omega
    simp only [refineIf, if_neg hd0, Option.bind_eq_bind] at h
    rw [Option.bind_eq_some_iff] at h
    obtain ⟨sv, hv, h⟩ := h
    rw [Option.bind_eq_some_iff] at h
    obtain ⟨su, hu, h⟩ := h
    simp only [Option.some.injEq, Prod.mk.injEq] at h
    obtain ⟨r1, r2⟩ := h
    have b1 := refine_some hv
    have b2 := refine_some hu
    constructor
    · rw [← r1]
      refine le_of_eq_of_le ?_ b1
      congr 1
      ring
    · rw [← r2]
      refine le_of_eq_of_le ?_ b2
      congr 1
      ring

end Verif
