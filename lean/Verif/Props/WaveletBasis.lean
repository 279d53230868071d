import Verif.Model.WaveletBasis

/-!
# C259: the wavelet basis of filters
-/

namespace Verif

namespace WaveletBasis

/-- `f` vanishes further than `s` from the centre. -/
def Within (s : ℕ) (f : ℤ → ℝ) : Prop := ∀ c : ℤ, (s : ℤ) < |c| → f c = 0

private noncomputable def D (f : ℤ → ℝ) (t : ℤ) : ℝ := (f (t / 2) + f ((t + 1) / 2)) / 2

private theorem D_within {s : ℕ} {f : ℤ → ℝ} (h : Within s f) : Within (2 * s + 1) (D f) := by
  intro t ht
  unfold D
  rw [h (t / 2), h ((t + 1) / 2)]
  · norm_num
  · rcases abs_cases t with ⟨h1, _⟩ | ⟨h1, _⟩ <;> rcases abs_cases ((t + 1) / 2) with ⟨h2, _⟩ | ⟨h2, _⟩ <;> push_cast at ht <;> omega
  · rcases abs_cases t with ⟨h1, _⟩ | ⟨h1, _⟩ <;> rcases abs_cases (t / 2) with ⟨h2, _⟩ | ⟨h2, _⟩ <;> push_cast at ht <;> omega

private theorem D_even {f : ℤ → ℝ} (h : ∀ c, f (-c) = f c) (t : ℤ) : D f (-t) = D f t := by
  unfold D
  have h1 : (-t) / 2 = -((t + 1) / 2) := by omega
  have h2 : (-t + 1) / 2 = -(t / 2) := by omega
  rw [h1, h2, h, h, add_comm]

/-- The convolution over all integers. -/
private noncomputable def conv (m : ℕ) (a b : ℤ → ℝ) (c : ℤ) : ℝ := ∑ t ∈ Finset.Icc (-(m : ℤ)) m, a t * b (c - t)

private theorem mem_coords {n : ℕ} {s : ℕ} (hs : 2 * s + 2 ≤ n) {c : ℤ} (hc : |c| ≤ s) : c ∈ coords n := by
  unfold coords
  rw [Finset.mem_Ico]
  rw [abs_le] at hc
  omega

private theorem conv_within {m s : ℕ} {a b : ℤ → ℝ} (hb : Within s b) : Within (m + s) (conv m a b) := by
  intro c hc
  unfold conv
  refine Finset.sum_eq_zero fun t ht => ?_
  rw [Finset.mem_Icc] at ht
  rw [hb (c - t), mul_zero]
  rcases abs_cases c with ⟨h1, _⟩ | ⟨h1, _⟩ <;> rcases abs_cases (c - t) with ⟨h2, _⟩ | ⟨h2, _⟩ <;> push_cast at hc <;> omega

private theorem conv_even {m : ℕ} {a b : ℤ → ℝ} (ha : ∀ c, a (-c) = a c) (hb : ∀ c, b (-c) = b c) (c : ℤ) :
    conv m a b (-c) = conv m a b c := by
  unfold conv
  refine Finset.sum_equiv (Equiv.neg ℤ) (fun t => ?_) fun t _ => ?_
  · simp only [Finset.mem_Icc, Equiv.neg_apply]; omega
  · rw [Equiv.neg_apply, ha, ← hb (c - -t)]
    congr 2; ring

/-- While all stays inside the array, the truncated convolution of the dilated array is the convolution over all integers. -/
private theorem convSame_eq {n s : ℕ} {f b : ℤ → ℝ} (hf : Within s f) (hb : Within s b) (hn : 2 * (3 * s + 1) + 2 ≤ n) (c : ℤ) :
    convSame n (dilate n f) b c = conv (2 * s + 1) (D f) b c := by
  have hD := D_within hf
  have hW : Within (3 * s + 1) (conv (2 * s + 1) (D f) b) := by
    have := conv_within (m := 2 * s + 1) (a := D f) hb
    intro c hc
    exact this c (by push_cast at hc ⊢; omega)
  unfold convSame
  by_cases hc : c ∈ coords n
  · rw [if_pos hc]
    have hb' : ∀ x, (if x ∈ coords n then b x else 0) = b x := by
      intro x
      by_cases hx : x ∈ coords n
      · rw [if_pos hx]
      · rw [if_neg hx, hb x]
        by_contra h
        exact hx (mem_coords (s := s) (by omega) (by omega))
    simp only [hb']
    set e : ℤ := 1 - (n % 2 : ℕ) with he
    have he' : 0 ≤ e ∧ e ≤ 1 := by omega
    have h1 : ∀ i, dilate n f i = D f (i + e) := by
      intro i
      unfold dilate D
      have : i + 1 - ((n % 2 : ℕ) : ℤ) = i + e := by rw [he]; ring
      simp only [this]
    simp only [h1]
    unfold conv
    have h2 : ∑ t ∈ Finset.Icc (-((2 * s + 1 : ℕ) : ℤ)) (2 * s + 1 : ℕ), D f t * b (c - t) =
        ∑ i ∈ (Finset.Icc (-((2 * s + 1 : ℕ) : ℤ) - e) ((2 * s + 1 : ℕ) - e)), D f (i + e) * b (c - i - e) := by
      refine Finset.sum_equiv (Equiv.subRight e) (fun t => ?_) fun t _ => ?_
      · simp only [Finset.mem_Icc, Equiv.subRight_apply]; omega
      · simp only [Equiv.subRight_apply]
        congr 2 <;> ring_nf
    rw [h2]
    refine (Finset.sum_subset ?_ ?_).symm
    · intro i hi
      unfold coords
      rw [Finset.mem_Icc] at hi
      rw [Finset.mem_Ico]
      push_cast at hi ⊢
      omega
    · intro i _ hi
      rw [hD (i + e), zero_mul]
      rw [Finset.mem_Icc] at hi
      rcases abs_cases (i + e) with ⟨h2, _⟩ | ⟨h2, _⟩ <;> push_cast at hi ⊢ <;> omega
  · rw [if_neg hc, hW c]
    by_contra h
    exact hc (mem_coords (s := 3 * s + 1) (by omega) (by push_cast at h ⊢; omega))

/-! ## Sums -/

private theorem sum_half (f : ℤ → ℝ) (m : ℕ) :
    ∑ t ∈ Finset.Ico (-(2 * m : ℤ)) (2 * m), f (t / 2) = 2 * ∑ k ∈ Finset.Ico (-(m : ℤ)) m, f k := by
  rw [← Finset.sum_fiberwise_of_maps_to (g := fun t : ℤ => t / 2) (t := Finset.Ico (-(m : ℤ)) m), Finset.mul_sum]
  · refine Finset.sum_congr rfl fun k hk => ?_
    have : (Finset.Ico (-(2 * m : ℤ)) (2 * m)).filter (fun t => t / 2 = k) = {2 * k, 2 * k + 1} := by
      ext t
      simp only [Finset.mem_filter, Finset.mem_Ico, Finset.mem_insert, Finset.mem_singleton] at hk ⊢
      omega
    rw [this, Finset.sum_pair (by omega)]
    have h1 : 2 * k / 2 = k := by omega
    have h2 : (2 * k + 1) / 2 = k := by omega
    rw [h1, h2]; ring
  · intro t ht
    simp only [Finset.mem_Ico] at ht ⊢
    omega

private theorem sum_wide {s : ℕ} {f : ℤ → ℝ} (hf : Within s f) {A : Finset ℤ} (hA : ∀ c : ℤ, |c| ≤ s → c ∈ A) :
    ∑ c ∈ A, f c = ∑ c ∈ Finset.Icc (-(s : ℤ)) s, f c := by
  symm
  refine Finset.sum_subset (fun c hc => hA c (by rw [Finset.mem_Icc] at hc; rw [abs_le]; exact hc)) fun c _ hc => hf c ?_
  rw [Finset.mem_Icc] at hc
  by_contra h
  exact hc (abs_le.1 (by omega))

private theorem sum_D {s : ℕ} {f : ℤ → ℝ} (hf : Within s f) :
    ∑ t ∈ Finset.Icc (-((2 * s + 1 : ℕ) : ℤ)) (2 * s + 1 : ℕ), D f t = 2 * ∑ c ∈ Finset.Icc (-(s : ℤ)) s, f c := by
  rw [← sum_wide (D_within hf) (A := Finset.Ico (-(2 * (s + 1 : ℕ) : ℤ)) (2 * (s + 1 : ℕ))) (by
    intro c hc
    rw [abs_le] at hc
    rw [Finset.mem_Ico]; push_cast at hc ⊢; omega)]
  unfold D
  rw [← Finset.sum_div, Finset.sum_add_distrib, sum_half]
  have hg : Within (2 * s + 1) fun t => f (t / 2) := by
    intro t ht
    refine hf _ ?_
    rcases abs_cases t with ⟨h1, _⟩ | ⟨h1, _⟩ <;> rcases abs_cases (t / 2) with ⟨h2, _⟩ | ⟨h2, _⟩ <;> push_cast at ht <;> omega
  have h2 : ∑ t ∈ Finset.Ico (-(2 * (s + 1 : ℕ) : ℤ)) (2 * (s + 1 : ℕ)), f ((t + 1) / 2) =
      ∑ t ∈ Finset.Ico (-(2 * (s + 1 : ℕ) : ℤ) + 1) (2 * (s + 1 : ℕ) + 1), f (t / 2) := by
    refine Finset.sum_equiv (Equiv.addRight 1) (fun t => ?_) fun t _ => rfl
    simp only [Finset.mem_Ico, Equiv.coe_addRight]; omega
  have h3 : ∑ t ∈ Finset.Ico (-(2 * (s + 1 : ℕ) : ℤ) + 1) (2 * (s + 1 : ℕ) + 1), f (t / 2) =
      ∑ t ∈ Finset.Ico (-(2 * (s + 1 : ℕ) : ℤ)) (2 * (s + 1 : ℕ)), f (t / 2) := by
    rw [sum_wide hg (A := Finset.Ico (-(2 * (s + 1 : ℕ) : ℤ) + 1) (2 * (s + 1 : ℕ) + 1)),
      sum_wide hg (A := Finset.Ico (-(2 * (s + 1 : ℕ) : ℤ)) (2 * (s + 1 : ℕ)))]
    · intro c hc
      rw [abs_le] at hc
      rw [Finset.mem_Ico]; push_cast at hc ⊢; omega
    · intro c hc
      rw [abs_le] at hc
      rw [Finset.mem_Ico]; push_cast at hc ⊢; omega
  have hA : ∀ c : ℤ, |c| ≤ s → c ∈ Finset.Ico (-((s + 1 : ℕ) : ℤ)) (s + 1 : ℕ) := by
    intro c hc
    rw [abs_le] at hc
    rw [Finset.mem_Ico]; push_cast; omega
  rw [h2, h3, sum_half, sum_wide hf hA]
  ring

private theorem sum_conv {m s : ℕ} {a b : ℤ → ℝ} (hb : Within s b) :
    ∑ c ∈ Finset.Icc (-((m + s : ℕ) : ℤ)) (m + s : ℕ), conv m a b c =
      (∑ t ∈ Finset.Icc (-(m : ℤ)) m, a t) * ∑ c ∈ Finset.Icc (-(s : ℤ)) s, b c := by
  unfold conv
  rw [Finset.sum_comm, Finset.sum_mul]
  refine Finset.sum_congr rfl fun t ht => ?_
  rw [← Finset.mul_sum]
  congr 1
  rw [Finset.mem_Icc] at ht
  have h1 : ∑ c ∈ Finset.Icc (-((m + s : ℕ) : ℤ)) (m + s : ℕ), b (c - t) =
      ∑ c ∈ Finset.Icc (-((m + s : ℕ) : ℤ) - t) ((m + s : ℕ) - t), b c := by
    refine Finset.sum_equiv (Equiv.subRight t) (fun c => ?_) fun c _ => rfl
    simp only [Finset.mem_Icc, Equiv.subRight_apply]; omega
  rw [h1]
  refine sum_wide hb fun c hc => ?_
  rw [abs_le] at hc
  rw [Finset.mem_Icc]
  push_cast
  omega

/-! ## The levels -/

/-- Support after `l` rounds. -/
private def supp (s : ℕ) : ℕ → ℕ
  | 0 => s
  | l + 1 => 3 * supp s l + 1

private theorem supp_eq (s l : ℕ) : 2 * supp s l + 1 = (2 * s + 1) * 3 ^ l := by
  induction l with
  | zero => simp [supp]
  | succ l ih =>
    rw [pow_succ, ← mul_assoc, ← ih]
    simp only [supp]; ring

private theorem supp_mono (s : ℕ) {l k : ℕ} (h : l ≤ k) : supp s l ≤ supp s k := by
  induction k, h using Nat.le_induction with
  | base => exact le_rfl
  | succ k _ ih => exact ih.trans (by simp only [supp]; omega)

private theorem Within.mono {s t : ℕ} {f : ℤ → ℝ} (h : Within s f) (hst : s ≤ t) : Within t f := fun c hc => h c (by omega)

/-- What is kept by the rounds. -/
private structure Good (s : ℕ) (p : (ℤ → ℝ) × (ℤ → ℝ)) : Prop where
  hiW : Within s p.1
  loW : Within s p.2
  hiE : ∀ c, p.1 (-c) = p.1 c
  loE : ∀ c, p.2 (-c) = p.2 c

private theorem good_levels {n s L : ℕ} {lo hi : List ℝ} (h0 : Good s (levels n lo hi 0)) (hn : 2 * supp s L + 2 ≤ n) :
    ∀ l, l ≤ L → Good (supp s l) (levels n lo hi l) := by
  intro l
  induction l with
  | zero => exact fun _ => h0
  | succ l ih =>
    intro hl
    obtain ⟨h1, h2, h3, h4⟩ := ih (by omega)
    have hnl : 2 * (3 * supp s l + 1) + 2 ≤ n := by
      have := supp_mono s hl
      simp only [supp] at this
      omega
    have e1 : (levels n lo hi (l + 1)).1 = conv (2 * supp s l + 1) (D (levels n lo hi l).1) (levels n lo hi l).2 :=
      funext fun c => convSame_eq h1 h2 hnl c
    have e2 : (levels n lo hi (l + 1)).2 = conv (2 * supp s l + 1) (D (levels n lo hi l).2) (levels n lo hi l).2 :=
      funext fun c => convSame_eq h2 h2 hnl c
    have hs : supp s (l + 1) = 2 * supp s l + 1 + supp s l := by simp only [supp]; ring
    refine ⟨?_, ?_, ?_, ?_⟩
    · rw [e1, hs]; exact conv_within h2
    · rw [e2, hs]; exact conv_within h2
    · rw [e1]; exact conv_even (D_even h3) h4
    · rw [e2]; exact conv_even (D_even h4) h4

private theorem sum_levels {n s L : ℕ} {lo hi : List ℝ} (h0 : Good s (levels n lo hi 0)) (hn : 2 * supp s L + 2 ≤ n)
    (hz : ∑ c ∈ Finset.Icc (-(s : ℤ)) s, (levels n lo hi 0).1 c = 0) :
    ∀ l, l ≤ L → ∑ c ∈ Finset.Icc (-(supp s l : ℤ)) (supp s l), (levels n lo hi l).1 c = 0 := by
  intro l
  induction l with
  | zero => exact fun _ => hz
  | succ l ih =>
    intro hl
    have hg := good_levels h0 hn l (by omega)
    have hnl : 2 * (3 * supp s l + 1) + 2 ≤ n := by
      have := supp_mono s hl
      simp only [supp] at this
      omega
    have e1 : (levels n lo hi (l + 1)).1 = conv (2 * supp s l + 1) (D (levels n lo hi l).1) (levels n lo hi l).2 :=
      funext fun c => convSame_eq hg.hiW hg.loW hnl c
    have hs : supp s (l + 1) = 2 * supp s l + 1 + supp s l := by simp only [supp]; ring
    rw [e1, hs, sum_conv hg.loW, sum_D hg.hiW, ih (by omega)]
    ring

/-! ## The first level -/

private theorem pad_odd {n r : ℕ} {f : List ℝ} (hl : f.length = 2 * r + 1) (hn : 2 * r + 1 ≤ n) (c : ℤ) :
    padCentre n f c = if 0 ≤ c + r then f.getD (c + r).toNat 0 else 0 := by
  unfold padCentre
  have : c + ((n / 2 : ℕ) : ℤ) - ((n - f.length - (n - f.length) / 2 : ℕ) : ℤ) = c + r := by
    rw [hl]; omega
  simp only [this]

private theorem pad_within {n r : ℕ} {f : List ℝ} (hl : f.length = 2 * r + 1) (hn : 2 * r + 1 ≤ n) : Within r (padCentre n f) := by
  intro c hc
  rw [pad_odd hl hn]
  split
  · rename_i h
    rw [List.getD_eq_getElem?_getD, List.getElem?_eq_none, Option.getD_none]
    rw [hl]
    rcases abs_cases c with ⟨h1, _⟩ | ⟨h1, _⟩ <;> omega
  · rfl

private theorem pad_even {n r : ℕ} {f : List ℝ} (hl : f.length = 2 * r + 1) (hn : 2 * r + 1 ≤ n) (hp : f.reverse = f) (c : ℤ) :
    padCentre n f (-c) = padCentre n f c := by
  by_cases hc : (r : ℤ) < |c|
  · rw [pad_within hl hn c hc, pad_within hl hn (-c) (by rwa [abs_neg])]
  · rw [not_lt, abs_le] at hc
    rw [pad_odd hl hn, pad_odd hl hn, if_pos (by omega), if_pos (by omega)]
    have h1 : (c + r).toNat < f.length := by omega
    have h2 : (-c + r).toNat < f.length := by omega
    rw [List.getD_eq_getElem?_getD, List.getD_eq_getElem?_getD, List.getElem?_eq_getElem h1, List.getElem?_eq_getElem h2,
      Option.getD_some, Option.getD_some]
    have h3 : f[(-c + r).toNat] = f.reverse[(-c + r).toNat]'(by rw [List.length_reverse]; exact h2) := by simp only [hp]
    rw [h3, List.getElem_reverse]
    congr 1
    omega

private theorem pad_sum {n r : ℕ} {f : List ℝ} (hl : f.length = 2 * r + 1) (hn : 2 * r + 1 ≤ n) :
    ∑ c ∈ Finset.Icc (-(r : ℤ)) r, padCentre n f c = f.sum := by
  have h1 : f.sum = ∑ i ∈ Finset.range (2 * r + 1), f.getD i 0 := by
    rw [← hl, Finset.sum_range, ← List.sum_ofFn]
    congr 1
    apply List.ext_getElem
    · simp
    · intro i h1 h2
      simp
  rw [h1]
  symm
  refine Finset.sum_bij (fun i _ => (i : ℤ) - r) ?_ ?_ ?_ ?_
  · intro i hi
    rw [Finset.mem_range] at hi
    rw [Finset.mem_Icc]; omega
  · intro i _ j _ h
    omega
  · intro c hc
    rw [Finset.mem_Icc] at hc
    exact ⟨(c + r).toNat, Finset.mem_range.2 (by omega), by omega⟩
  · intro i hi
    rw [pad_odd hl hn, if_pos (by omega)]
    congr 1
    omega

/-! ## The property -/

/-- A filter of odd length that is the same read from its end, without zeros at the ends. -/
def SymFilter (s : ℕ) (f : List ℝ) : Prop := ∃ r ≤ s, (trimZeros f).length = 2 * r + 1 ∧ (trimZeros f).reverse = trimZeros f

private theorem good0 {n s : ℕ} {lo hi : List ℝ} (hlo : SymFilter s lo) (hhi : SymFilter s hi) (hn : 2 * s + 1 ≤ n) :
    Good s (levels n lo hi 0) := by
  obtain ⟨r, hr, hl, hp⟩ := hlo
  obtain ⟨q, hq, hl', hp'⟩ := hhi
  exact ⟨(pad_within hl' (by omega)).mono hq, (pad_within hl (by omega)).mono hr, pad_even hl' (by omega) hp', pad_even hl (by omega) hp⟩

private theorem shifted_neg {n : ℕ} {f : ℤ → ℝ} {s : ℕ} (hW : Within s f) (hE : ∀ c, f (-c) = f c) (hn : 2 * s + 2 ≤ n) (i j : Fin n)
    (hij : ((i : ℕ) + j) % n = 0) : shifted n f i = shifted n f j := by
  unfold shifted
  have hi := i.isLt
  have hj := j.isLt
  have hcase : (i : ℕ) + j = 0 ∨ (i : ℕ) + j = n := by
    obtain ⟨k, hk⟩ := Nat.dvd_of_mod_eq_zero hij
    rcases k with _ | _ | k
    · left; simpa using hk
    · right; simpa using hk
    · exfalso
      have : n * 2 ≤ n * (k + 1 + 1) := Nat.mul_le_mul_left _ (by omega)
      omega
  rcases hcase with h | h
  · have h1 : (i : ℕ) = 0 := by omega
    have h2 : (j : ℕ) = 0 := by omega
    rw [h1, h2]
  · by_cases h1 : (i : ℕ) < n - n / 2 <;> by_cases h2 : (j : ℕ) < n - n / 2
    · have : (i : ℕ) = j := by omega
      rw [this]
    · rw [if_pos h1, if_neg h2, ← hE]
      congr 1; push_cast; omega
    · rw [if_neg h1, if_pos h2, ← hE]
      congr 1; push_cast; omega
    · have : (i : ℕ) = j := by omega
      rw [this]

private theorem rows_of {n s level : ℕ} {lo hi : List ℝ} (hlo : SymFilter s lo) (hhi : SymFilter s hi)
    (hn : (2 * s + 1) * 3 ^ (level - 1) + 1 ≤ n) :
    createBasis n lo hi level = some ((rawRows n lo hi level).map fun f j => shifted n f j / ∑ i, |shifted n f i|) := by
  unfold createBasis
  rw [if_neg]
  obtain ⟨r, hr, hl, _⟩ := hlo
  obtain ⟨q, hq, hl', _⟩ := hhi
  rw [hl, hl']
  have h1 : (2 * s + 1) * 1 ≤ (2 * s + 1) * 3 ^ (level - 1) := Nat.mul_le_mul_left _ (Nat.one_le_pow _ _ (by norm_num))
  rintro (h | h | ⟨h, h'⟩)
  · omega
  · omega
  · have : 3 ^ 1 ≤ 3 ^ (level - 1) := Nat.pow_le_pow_right (by norm_num) (by omega)
    have h2 : 1 * 3 ^ (level - 1) ≤ (2 * s + 1) * 3 ^ (level - 1) := Nat.mul_le_mul_right _ (by omega)
    omega

/-- **C259 (partial).** For every symmetric wavelet (filters of odd length, at most `2 s + 1`) and as long as the number of pixels exceeds
`(2 s + 1) 3^(level - 1)`, the basis has one detail function per level and one approximation, and each of them is symmetric around the first pixel:
`r[j] = r[n - j]`, so that its spectrum is real. -/
theorem C259_symmetric_partial (n s level : ℕ) (lo hi : List ℝ) (hlo : SymFilter s lo) (hhi : SymFilter s hi)
    (hlevel : 1 ≤ level) (hn : (2 * s + 1) * 3 ^ (level - 1) + 1 ≤ n) :
    ∃ rows, createBasis n lo hi level = some rows ∧ rows.length = level + 1 ∧
      ∀ r ∈ rows, ∀ i j : Fin n, ((i : ℕ) + j) % n = 0 → r i = r j := by
  have hn2 : 2 * supp s (level - 1) + 2 ≤ n := by have := supp_eq s (level - 1); omega
  have hg := good_levels (n := n) (L := level - 1) (good0 hlo hhi (by
    have := supp_mono s (Nat.zero_le (level - 1)); simp only [supp] at this; omega)) hn2
  refine ⟨_, rows_of hlo hhi hn, ?_, ?_⟩
  · simp [rawRows]; omega
  · intro r hr i j hij
    obtain ⟨f, hf, rfl⟩ := List.mem_map.1 hr
    have key : ∃ l ≤ level - 1, Within (supp s l) f ∧ ∀ c, f (-c) = f c := by
      unfold rawRows at hf
      rcases List.mem_append.1 hf with hf | hf
      · obtain ⟨l, hl, rfl⟩ := List.mem_map.1 hf
        rw [List.mem_range] at hl
        exact ⟨l, by omega, (hg l (by omega)).hiW, (hg l (by omega)).hiE⟩
      · rw [List.mem_singleton] at hf
        subst hf
        exact ⟨level - 1, le_rfl, (hg _ le_rfl).loW, (hg _ le_rfl).loE⟩
    obtain ⟨l, hl, hW, hE⟩ := key
    have := supp_mono s hl
    show shifted n f i / _ = shifted n f j / _
    rw [shifted_neg hW hE (by omega) i j hij]

private theorem sum_shifted {n s : ℕ} {f : ℤ → ℝ} (hW : Within s f) (hn : 2 * s + 2 ≤ n) :
    ∑ j : Fin n, shifted n f j = ∑ c ∈ Finset.Icc (-(s : ℤ)) s, f c := by
  rw [← sum_wide hW (A := coords n) fun c hc => mem_coords hn hc]
  unfold shifted
  refine Finset.sum_bij (fun (j : Fin n) _ => if (j : ℕ) < n - n / 2 then ((j : ℕ) : ℤ) else (j : ℕ) - n) ?_ ?_ ?_ ?_
  · intro j _
    have := j.isLt
    unfold coords
    rw [Finset.mem_Ico]
    split <;> omega
  · intro i _ j _ h
    have := i.isLt
    have := j.isLt
    ext
    split at h <;> split at h <;> omega
  · intro c hc
    unfold coords at hc
    rw [Finset.mem_Ico] at hc
    by_cases h : 0 ≤ c
    · refine ⟨⟨c.toNat, by omega⟩, Finset.mem_univ _, ?_⟩
      dsimp only
      rw [if_pos (by omega)]; omega
    · refine ⟨⟨(c + n).toNat, by omega⟩, Finset.mem_univ _, ?_⟩
      dsimp only
      rw [if_neg (by omega)]; omega
  · intro j _
    rfl

/-- **C259 (partial).** Under the same conditions, if the high-pass filter has no mean, neither has any of the detail functions: they do not change the
mean of the data. -/
theorem C259_zero_mean_partial (n s level : ℕ) (lo hi : List ℝ) (hlo : SymFilter s lo) (hhi : SymFilter s hi)
    (hz : (trimZeros hi).sum = 0) (hn : (2 * s + 1) * 3 ^ (level - 1) + 1 ≤ n) :
    ∃ rows, createBasis n lo hi level = some rows ∧ ∀ l < level, ∀ r, rows[l]? = some r → ∑ j, r j = 0 := by
  have hn2 : 2 * supp s (level - 1) + 2 ≤ n := by have := supp_eq s (level - 1); omega
  have hs : 2 * s + 2 ≤ n := by have := supp_mono s (Nat.zero_le (level - 1)); simp only [supp] at this; omega
  have h0 := good0 hlo hhi (by omega : 2 * s + 1 ≤ n)
  have hg := good_levels (n := n) (L := level - 1) h0 hn2
  refine ⟨_, rows_of hlo hhi hn, fun l hl r hr => ?_⟩
  have hz' : ∑ c ∈ Finset.Icc (-(s : ℤ)) s, (levels n lo hi 0).1 c = 0 := by
    obtain ⟨q, hq, hl', _⟩ := hhi
    show ∑ c ∈ Finset.Icc (-(s : ℤ)) s, padCentre n (trimZeros hi) c = 0
    rw [sum_wide (pad_within hl' (by omega)) fun c hc => by rw [abs_le] at hc; rw [Finset.mem_Icc]; omega, pad_sum hl' (by omega), hz]
  have hsum := sum_levels h0 hn2 hz' l (by omega)
  rw [List.getElem?_map] at hr
  unfold rawRows at hr
  rw [List.getElem?_append_left (by simp; omega), List.getElem?_map, List.getElem?_range (by omega)] at hr
  simp only [Option.map_some, Option.some.injEq] at hr
  subst hr
  rw [← Finset.sum_div, sum_shifted (hg l (by omega)).hiW (by have := supp_mono s (show l ≤ level - 1 by omega); omega), hsum, zero_div]

/-- **C259.** Every function of the basis that is not zero has the (first) norm one. -/
theorem C259_normalised (n level : ℕ) (lo hi : List ℝ) (rows : List (Fin n → ℝ)) (h : createBasis n lo hi level = some rows) :
    ∀ r ∈ rows, (∃ j, r j ≠ 0) → ∑ j, |r j| = 1 := by
  unfold createBasis at h
  split at h
  · cases h
  · injection h with h
    subst h
    intro r hr ⟨j, hj⟩
    obtain ⟨f, _, rfl⟩ := List.mem_map.1 hr
    have hne : ∑ i, |shifted n f i| ≠ 0 := fun h0 => hj (by show shifted n f j / _ = 0; rw [h0, div_zero])
    have hpos : 0 ≤ ∑ i, |shifted n f i| := Finset.sum_nonneg fun _ _ => abs_nonneg _
    have : ∀ i, |shifted n f i / (∑ i, |shifted n f i|)| = |shifted n f i| / (∑ i, |shifted n f i|) := fun i => by
      rw [abs_div, abs_of_nonneg hpos]
    show ∑ j, |shifted n f j / (∑ i, |shifted n f i|)| = 1
    simp only [this]
    rw [← Finset.sum_div, div_self hne]

private theorem trim3 (a b c : ℝ) (ha : a ≠ 0) (hc : c ≠ 0) : trimZeros [a, b, c] = [a, b, c] := by
  simp [trimZeros, List.dropWhile, ha, hc]

private theorem sym3 (a b : ℝ) (ha : a ≠ 0) : SymFilter 1 [a, b, a] :=
  ⟨1, le_rfl, by rw [trim3 _ _ _ ha ha]; rfl, by rw [trim3 _ _ _ ha ha]; rfl⟩

/-- Non-vacuity of C259: the symmetric wavelet with the filters `1, 2, 1` and `1, -2, 1`, three levels, 28 pixels or more. -/
example : SymFilter 1 [1, 2, 1] ∧ SymFilter 1 [1, -2, 1] ∧ (trimZeros [1, -2, 1]).sum = 0 ∧ (2 * 1 + 1) * 3 ^ (3 - 1) + 1 ≤ 28 := by
  refine ⟨sym3 1 2 one_ne_zero, sym3 1 (-2) one_ne_zero, ?_, by norm_num⟩
  rw [trim3 _ _ _ one_ne_zero one_ne_zero]
  norm_num

/-- **C259, violated.** With few pixels the functions of the higher levels do not fit, and lose symmetry and zero mean (no error is raised). -/
theorem C259_few_pixels_violated :
    ¬ ∀ (n s level : ℕ) (lo hi : List ℝ) (rows : List (Fin n → ℝ)), SymFilter s lo → SymFilter s hi → (trimZeros hi).sum = 0 →
      createBasis n lo hi level = some rows →
      (∀ r ∈ rows, ∀ i j : Fin n, ((i : ℕ) + j) % n = 0 → r i = r j) ∨ ∀ l < level, ∀ r, rows[l]? = some r → ∑ j, r j = 0 := by
  intro h
  have hlo := trim3 1 2 1 one_ne_zero one_ne_zero
  have hhi := trim3 1 (-2) 1 one_ne_zero one_ne_zero
  obtain ⟨rows, hrows⟩ : ∃ rows, createBasis 4 [1, 2, 1] [1, -2, 1] 2 = some rows := by
    unfold createBasis
    rw [if_neg (by rw [hlo, hhi]; simp)]
    exact ⟨_, rfl⟩
  have hp : ∀ f : List ℝ, f.length = 2 * 1 + 1 → ∀ c, padCentre 4 f c = if 0 ≤ c + 1 then f.getD (c + 1).toNat 0 else 0 :=
    fun f hf c => by simpa using pad_odd (n := 4) hf (by norm_num) c
  have hco : coords 4 = {-2, -1, 0, 1} := by
    ext c
    simp only [coords, Finset.mem_Ico, Finset.mem_insert, Finset.mem_singleton]
    omega
  have hL : ∀ c, padCentre 4 [1, 2, 1] c = if c = -1 then 1 else if c = 0 then 2 else if c = 1 then 1 else 0 := by
    intro c
    rw [hp _ rfl]
    by_cases h1 : c = -1
    · subst h1; norm_num
    by_cases h2 : c = 0
    · subst h2; norm_num
    by_cases h3 : c = 1
    · subst h3; norm_num; rfl
    rw [if_neg h1, if_neg h2, if_neg h3]
    split
    · rw [List.getD_eq_getElem?_getD, List.getElem?_eq_none (by simp only [List.length_cons, List.length_nil]; omega), Option.getD_none]
    · rfl
  have hH : ∀ c, padCentre 4 [1, -2, 1] c = if c = -1 then 1 else if c = 0 then -2 else if c = 1 then 1 else 0 := by
    intro c
    rw [hp _ rfl]
    by_cases h1 : c = -1
    · subst h1; norm_num
    by_cases h2 : c = 0
    · subst h2; norm_num
    by_cases h3 : c = 1
    · subst h3; norm_num; rfl
    rw [if_neg h1, if_neg h2, if_neg h3]
    split
    · rw [List.getD_eq_getElem?_getD, List.getElem?_eq_none (by simp only [List.length_cons, List.length_nil]; omega), Option.getD_none]
    · rfl
  have hv : ∀ c, (levels 4 [1, 2, 1] [1, -2, 1] 1).1 c =
      convSame 4 (dilate 4 (padCentre 4 [1, -2, 1])) (padCentre 4 [1, 2, 1]) c := by
    intro c
    show convSame 4 (dilate 4 (padCentre 4 (trimZeros [1, -2, 1]))) (padCentre 4 (trimZeros [1, 2, 1])) c = _
    rw [hlo, hhi]
  have v0 : (levels 4 [1, 2, 1] [1, -2, 1] 1).1 0 = -5 := by
    rw [hv]; unfold convSame; rw [hco]; simp [dilate, hL, hH]; norm_num
  have v1 : (levels 4 [1, 2, 1] [1, -2, 1] 1).1 1 = -2 := by
    rw [hv]; unfold convSame; rw [hco]; simp [dilate, hL, hH]; norm_num
  have v2 : (levels 4 [1, 2, 1] [1, -2, 1] 1).1 (-2) = -1 / 2 := by
    rw [hv]; unfold convSame; rw [hco]; simp [dilate, hL, hH]; norm_num
  have v3 : (levels 4 [1, 2, 1] [1, -2, 1] 1).1 (-1) = -3 := by
    rw [hv]; unfold convSame; rw [hco]; simp [dilate, hL, hH]; norm_num
  have hr : rows[1]? = some fun j => shifted 4 (levels 4 [1, 2, 1] [1, -2, 1] 1).1 j /
      ∑ i, |shifted 4 (levels 4 [1, 2, 1] [1, -2, 1] 1).1 i| := by
    unfold createBasis at hrows
    rw [if_neg (by rw [hlo, hhi]; simp)] at hrows
    injection hrows with hrows
    rw [← hrows]
    rfl
  have s0 : shifted 4 (levels 4 [1, 2, 1] [1, -2, 1] 1).1 0 = -5 := v0
  have s1 : shifted 4 (levels 4 [1, 2, 1] [1, -2, 1] 1).1 1 = -2 := v1
  have s2 : shifted 4 (levels 4 [1, 2, 1] [1, -2, 1] 1).1 2 = -1 / 2 := v2
  have s3 : shifted 4 (levels 4 [1, 2, 1] [1, -2, 1] 1).1 3 = -3 := v3
  have hN : ∑ i, |shifted 4 (levels 4 [1, 2, 1] [1, -2, 1] 1).1 i| = 21 / 2 := by
    rw [Fin.sum_univ_four, s0, s1, s2, s3]
    norm_num [abs_of_neg]
  rcases h 4 1 2 [1, 2, 1] [1, -2, 1] rows (sym3 1 2 one_ne_zero) (sym3 1 (-2) one_ne_zero) (by rw [hhi]; norm_num) hrows with h | h
  · have := h _ (List.mem_of_getElem? hr) 1 3 (by decide)
    rw [hN, s1, s3] at this
    norm_num at this
  · have := h 1 (by norm_num) _ hr
    rw [← Finset.sum_div, hN, Fin.sum_univ_four, s0, s1, s2, s3] at this
    norm_num at this

end WaveletBasis

end Verif
