import Verif.Model.Masks
import Verif.Props.Snip
import Verif.Props.CrossCorrelation

/-!
# Properties of the masks: `circular_mask` and `ball` of `src/corrct/processing/misc.py`
-/

namespace Verif

open Finset

variable {d m : ℕ}

/-! ## C171: circular masks -/

/-- The part of `maskValue` with a cosine. -/
private noncomputable def cosPart (r cut dist : ℝ) : ℝ :=
  (Real.cos (max (dist - r) 0 / (cut - r) * Real.pi) / 2 + 1 / 2) * if dist < cut then 1 else 0

private theorem cosPart_range (r cut dist : ℝ) : 0 ≤ cosPart r cut dist ∧ cosPart r cut dist ≤ 1 := by
  unfold cosPart
  have h1 := Real.neg_one_le_cos (max (dist - r) 0 / (cut - r) * Real.pi)
  have h2 := Real.cos_le_one (max (dist - r) 0 / (cut - r) * Real.pi)
  split_ifs
  · constructor <;> linarith
  · constructor <;> linarith

/-- The radius at which the taper ends. -/
noncomputable def MaskTaper.cutOff (taper : MaskTaper) (offset e : ℝ) : Option ℝ :=
  match taper with
  | .hard => none
  | .cosEdge => some (e / 2)
  | .cosDiagonal => some (e / Real.sqrt 2)
  | .cosTo t => some (e / 2 + max t offset)

private theorem maskValue_eq (taper : MaskTaper) (offset r e dist : ℝ) : maskValue taper offset r e dist =
    match taper.cutOff offset e with
    | none => some (if dist ≤ r then 1 else 0)
    | some cut => if cut - r = 0 then none else some (cosPart r cut dist) := by
  cases taper <;> simp only [maskValue, MaskTaper.cutOff, cosPart, add_zero]

private theorem maskValue_range (taper : MaskTaper) (offset r e dist : ℝ) :
    0 ≤ (maskValue taper offset r e dist).getD 0 ∧ (maskValue taper offset r e dist).getD 0 ≤ 1 := by
  rw [maskValue_eq]
  cases taper.cutOff offset e with
  | none => simp only [Option.getD_some]; split_ifs <;> norm_num
  | some cut =>
    simp only
    split_ifs
    · simp
    · simpa using cosPart_range r cut dist

theorem sum_fin_const (ss d : ℕ) (c : ℝ) : ∑ _k : Fin d → Fin ss, c = (ss : ℝ) ^ d * c := by
  rw [Finset.sum_const, nsmul_eq_mul]
  simp [Fintype.card_fun]

/-- The distance of a sub-pixel from the origin. -/
noncomputable def subDist (shape : Fin d → ℕ) (axes : Fin (m + 1) → Fin d) (p : ℝ) (origin : Fin d → ℝ) (ss : ℕ) (i : Fin d → ℕ)
    (k : Fin d → Fin ss) : ℝ :=
  ballDist p fun a => maskCoord (shape (axes a)) ss (origin (axes a)) (i (axes a) * ss + k (axes a))

private theorem circularMask_eq (shape : Fin d → ℕ) (offset : ℝ) (axes : Fin (m + 1) → Fin d) (p : ℝ) (origin : Fin d → ℝ)
    (taper : MaskTaper) (ss : ℕ) (i : Fin d → ℕ) : circularMask shape offset axes p origin taper ss i =
    if ∃ k, maskValue taper offset (minSize shape axes / 2 + offset) (minSize shape axes) (subDist shape axes p origin ss i k) = none then none
    else some ((∑ k, (maskValue taper offset (minSize shape axes / 2 + offset) (minSize shape axes) (subDist shape axes p origin ss i k)).getD 0) /
      (ss : ℝ) ^ d) := rfl

/-- **C171, violated part.** The tapered mask with the default offset and target (`circular_mask(shape, taper_func="cos")`) is NaN at
every pixel of every volume. -/
theorem C171_circular_mask_violated :
    (¬ ∀ (shape : Fin 2 → ℕ) (offset : ℝ) (axes : Fin (1 + 1) → Fin 2) (p : ℝ) (origin : Fin 2 → ℝ) (taper : MaskTaper) (ss : ℕ)
      (i : Fin 2 → ℕ), 0 < ss → circularMask shape offset axes p origin taper ss i ≠ none) ∧
    ∀ (d m : ℕ) (shape : Fin d → ℕ) (axes : Fin (m + 1) → Fin d) (p : ℝ) (origin : Fin d → ℝ) (ss : ℕ) (i : Fin d → ℕ), 0 < ss →
      circularMask shape 0 axes p origin .cosEdge ss i = none := by
  have main : ∀ (d m : ℕ) (shape : Fin d → ℕ) (axes : Fin (m + 1) → Fin d) (p : ℝ) (origin : Fin d → ℝ) (ss : ℕ) (i : Fin d → ℕ), 0 < ss →
      circularMask shape 0 axes p origin .cosEdge ss i = none := by
    intro d m shape axes p origin ss i hss
    rw [circularMask_eq, if_pos]
    refine ⟨fun _ => ⟨0, hss⟩, ?_⟩
    simp [maskValue]
  exact ⟨fun h => h (fun _ => 4) 0 id 2 (fun _ => 0) .cosEdge 1 (fun _ => 0) one_pos (main 2 1 _ id 2 _ 1 _ one_pos), main⟩

/-- **C171, proved part.** Unless the taper has no width, every pixel of `circular_mask` has a value, between 0 and 1. It is the mean over
its `ss ^ d` sub-pixels of: without taper, 1 within the radius (half the smallest chosen size plus the offset) and 0 outside; with taper,
1 within the radius (if the cut-off is beyond it), 0 from the cut-off radius on, and in between it does not increase with the distance.
Without an origin the mask is symmetric under reflections along any axes. -/
theorem C171_circular_mask_partial (shape : Fin d → ℕ) (offset : ℝ) (axes : Fin (m + 1) → Fin d) (p : ℝ) (origin : Fin d → ℝ)
    (taper : MaskTaper) (ss : ℕ) (hss : 0 < ss)
    (e : ℝ) (hleast : IsLeast (Set.range fun a => (shape (axes a) : ℝ)) e) (hcut : ∀ cut, taper.cutOff offset (e) = some cut → cut ≠ e / 2 + offset) :
    ∃ profile : ℝ → ℝ,
      (∀ i, circularMask shape offset axes p origin taper ss i =
        some ((∑ k : Fin d → Fin ss, profile (subDist shape axes p origin ss i k)) / (ss : ℝ) ^ d)) ∧
      (∀ x, 0 ≤ profile x ∧ profile x ≤ 1) ∧
      (∀ i v, circularMask shape offset axes p origin taper ss i = some v → 0 ≤ v ∧ v ≤ 1) ∧
      (taper = .hard → ∀ x, profile x = if x ≤ e / 2 + offset then 1 else 0) ∧
      (∀ cut, taper.cutOff offset (e) = some cut → e / 2 + offset < cut →
        (∀ x, x ≤ e / 2 + offset → profile x = 1) ∧ (∀ x, cut ≤ x → profile x = 0) ∧ Antitone profile) ∧
      ((∀ a, origin a = 0) → ∀ (flip : Fin d → Bool) (i : Fin d → ℕ), (∀ a, i a < shape a) →
        circularMask shape offset axes p origin taper ss (fun a => if flip a then shape a - 1 - i a else i a) =
          circularMask shape offset axes p origin taper ss i) := by
  have he : e = minSize shape axes := by
    refine le_antisymm ?_ ?_
    · obtain ⟨a, -, ha⟩ := Finset.exists_mem_eq_inf' Finset.univ_nonempty (fun a => shape (axes a))
      unfold minSize
      rw [ha]
      exact hleast.2 ⟨a, rfl⟩
    · obtain ⟨a, ha⟩ := hleast.1
      rw [← ha]
      unfold minSize
      have h := Finset.inf'_le (fun a => shape (axes a)) (Finset.mem_univ a)
      show (_ : ℝ) ≤ (shape (axes a) : ℝ)
      exact_mod_cast h
  set r := e / 2 + offset with hr
  have hval : ∀ x, maskValue taper offset r e x ≠ none := by
    intro x
    rw [maskValue_eq]
    cases h : taper.cutOff offset e with
    | none => simp
    | some cut =>
      simp only
      rw [if_neg (sub_ne_zero.2 (hcut cut h))]
      simp
  have heq : ∀ i, circularMask shape offset axes p origin taper ss i =
      some ((∑ k : Fin d → Fin ss, (maskValue taper offset r e (subDist shape axes p origin ss i k)).getD 0) / (ss : ℝ) ^ d) := by
    intro i
    rw [circularMask_eq, ← he, if_neg]
    rintro ⟨k, hk⟩
    exact hval _ hk
  have hpow : (0 : ℝ) < (ss : ℝ) ^ d := pow_pos (by exact_mod_cast hss) d
  refine ⟨fun x => (maskValue taper offset r e x).getD 0, heq, fun x => maskValue_range taper offset r e x, ?_, ?_, ?_, ?_⟩
  · intro i v hv
    rw [heq] at hv
    obtain rfl := Option.some.inj hv
    constructor
    · exact div_nonneg (Finset.sum_nonneg fun k _ => (maskValue_range taper offset r e _).1) hpow.le
    · rw [div_le_one hpow, ← mul_one ((ss : ℝ) ^ d), ← sum_fin_const ss d 1]
      exact Finset.sum_le_sum fun k _ => (maskValue_range taper offset r e _).2
  · rintro rfl x
    simp [maskValue]
  · intro cut hc hlt
    have hv : ∀ x, (maskValue taper offset r e x).getD 0 = cosPart r cut x := by
      intro x
      rw [maskValue_eq, hc]
      simp only
      rw [if_neg (sub_ne_zero.2 (hcut cut hc))]
      simp
    have hpos : 0 < cut - r := by linarith
    have inside : ∀ x, x ≤ r → cosPart r cut x = 1 := by
      intro x hx
      unfold cosPart
      rw [max_eq_right (by linarith), zero_div, zero_mul, Real.cos_zero, if_pos (by linarith)]
      norm_num
    have outside : ∀ x, cut ≤ x → cosPart r cut x = 0 := by
      intro x hx
      unfold cosPart
      rw [if_neg (by linarith), mul_zero]
    refine ⟨fun x hx => (hv x).trans (inside x hx), fun x hx => (hv x).trans (outside x hx), fun x y hxy => ?_⟩
    simp only [hv]
    rcases le_or_gt cut y with hy | hy
    · rw [outside y hy]; exact (cosPart_range r cut x).1
    · unfold cosPart
      rw [if_pos hy, if_pos (lt_of_le_of_lt hxy hy), mul_one, mul_one]
      have hm : max (x - r) 0 ≤ max (y - r) 0 := max_le_max (by linarith) le_rfl
      have h0 : 0 ≤ max (x - r) 0 := le_max_right _ _
      have h1 : max (y - r) 0 ≤ cut - r := max_le (by linarith) hpos.le
      have := Real.cos_le_cos_of_nonneg_of_le_pi (x := max (x - r) 0 / (cut - r) * Real.pi) (y := max (y - r) 0 / (cut - r) * Real.pi)
        (mul_nonneg (div_nonneg h0 hpos.le) Real.pi_pos.le)
        (by
          have : max (y - r) 0 / (cut - r) ≤ 1 := (div_le_one hpos).2 h1
          nlinarith [Real.pi_pos])
        (mul_le_mul_of_nonneg_right (div_le_div_of_nonneg_right hm hpos.le) Real.pi_pos.le)
      linarith
  · intro ho flip i hi
    rw [heq, heq]
    congr 2
    refine Fintype.sum_equiv (Equiv.piCongrRight fun a => if flip a then (Fin.revPerm : Equiv.Perm (Fin ss)) else Equiv.refl _) _ _ fun k => ?_
    congr 2
    unfold subDist ballDist
    have habs : ∀ a : Fin (m + 1), |maskCoord (shape (axes a)) ss (origin (axes a)) ((if flip (axes a) then shape (axes a) - 1 - i (axes a) else i (axes a)) * ss + k (axes a))| =
        |maskCoord (shape (axes a)) ss (origin (axes a)) (i (axes a) * ss + ((Equiv.piCongrRight fun a => if flip a then (Fin.revPerm : Equiv.Perm (Fin ss)) else Equiv.refl _) k) (axes a))| := by
      intro a
      simp only [Equiv.piCongrRight_apply, Pi.map_apply]
      cases hf : flip (axes a) with
      | false => simp
      | true =>
        simp only [if_true, Fin.revPerm_apply, Fin.val_rev]
        rw [ho]
        have hs : (ss : ℝ) ≠ 0 := by exact_mod_cast hss.ne'
        have hia := hi (axes a)
        have hk := (k (axes a)).isLt
        rw [← abs_neg]
        congr 1
        unfold maskCoord
        rw [show shape (axes a) - 1 - i (axes a) = shape (axes a) - (1 + i (axes a)) by omega]
        push_cast [Nat.cast_sub (show 1 + i (axes a) ≤ shape (axes a) by omega), Nat.cast_sub (show (k (axes a) : ℕ) + 1 ≤ ss by omega)]
        field_simp
        ring
    split_ifs with h1
    · exact Finset.sum_congr rfl fun a _ => habs a
    · congr 1
      exact Finset.sum_congr rfl fun a _ => by rw [habs a]

/-- **C171**, the distances: along an axis of `n` pixels the sub-pixels of the pixel `i` are the `ss` equal parts of the interval of
length one around `i - (n - 1) / 2`; and for two axes and the norm of order two (the defaults) the distance is the Euclidean one. -/
theorem C171_distances :
    (∀ (n ss i k : ℕ) (o : ℝ), 0 < ss → maskCoord n ss o (i * ss + k) = (i - ((n : ℝ) - 1) / 2) + (((k : ℝ) + 1 / 2) / ss - 1 / 2) + o) ∧
    (∀ (shape : Fin d → ℕ) (axes : Fin (1 + 1) → Fin d) (origin : Fin d → ℝ) (i : Fin d → ℕ) (k : Fin d → Fin 1),
      subDist shape axes 2 origin 1 i k = Real.sqrt ((i (axes 0) - ((shape (axes 0) : ℝ) - 1) / 2 + origin (axes 0)) ^ 2 +
        (i (axes 1) - ((shape (axes 1) : ℝ) - 1) / 2 + origin (axes 1)) ^ 2)) ∧
    (∀ (shape : Fin d → ℕ) (axis : Fin d) (p : ℝ) (origin : Fin d → ℝ) (i : Fin d → ℕ) (k : Fin d → Fin 1),
      subDist shape (fun _ : Fin (0 + 1) => axis) p origin 1 i k = |i axis - ((shape axis : ℝ) - 1) / 2 + origin axis|) := by
  have hc : ∀ (n ss i k : ℕ) (o : ℝ), 0 < ss → maskCoord n ss o (i * ss + k) = (i - ((n : ℝ) - 1) / 2) + (((k : ℝ) + 1 / 2) / ss - 1 / 2) + o := by
    intro n ss i k o hss
    have : (ss : ℝ) ≠ 0 := by exact_mod_cast hss.ne'
    unfold maskCoord
    push_cast
    field_simp
    ring
  have h1 : ∀ (n i : ℕ) (k : Fin 1) (o : ℝ), maskCoord n 1 o (i * 1 + k) = i - ((n : ℝ) - 1) / 2 + o := by
    intro n i k o
    rw [hc n 1 i k o one_pos, Fin.val_eq_zero k]
    norm_num
  refine ⟨hc, fun shape axes origin i k => ?_, fun shape axis p origin i k => ?_⟩
  · unfold subDist ballDist
    rw [if_neg (by norm_num), Real.sqrt_eq_rpow]
    simp only [h1]
    rw [Fin.sum_univ_two]
    simp only [Real.rpow_two, sq_abs]
  · unfold subDist ballDist
    rw [if_pos (by norm_num)]
    simp only [h1]
    simp

/-- Not vacuous: the disk in a 4 by 4 image: the pixel in the corner is outside, the pixel next to the centre inside. -/
example : circularMask (fun _ : Fin 2 => 4) 0 (id : Fin (1 + 1) → Fin 2) 2 (fun _ => 0) .hard 1 (fun _ => 0) = some 0 ∧
    circularMask (fun _ : Fin 2 => 4) 0 (id : Fin (1 + 1) → Fin 2) 2 (fun _ => 0) .hard 1 (fun _ => 1) = some 1 := by
  obtain ⟨pr, h1, -, -, h2, -⟩ := C171_circular_mask_partial (fun _ : Fin 2 => 4) 0 (id : Fin (1 + 1) → Fin 2) 2 (fun _ => 0) .hard 1 one_pos
    4 ⟨⟨0, by norm_num⟩, by rintro _ ⟨a, rfl⟩; norm_num⟩ (by intro cut h; cases h)
  have h2' := h2 rfl
  have hd := (C171_distances (d := 2)).2.1 (fun _ => 4) id (fun _ => 0)
  rw [h1, h1]
  simp only [h2', hd]
  constructor
  · rw [if_neg]
    · simp
    · rw [not_le]
      refine Real.lt_sqrt_of_sq_lt ?_
      norm_num
  · rw [if_pos]
    · simp
    · rw [Real.sqrt_le_left (by norm_num)]
      norm_num

/-! ## C172: shapes -/

/-- **C172, violated part.** The mask that `power_spectrum` and `compute_frc` multiply the image with is squeezed: for an image with
one column the product is a square image; and without squeezing, a mask over one axis has one axis too many. -/
theorem C172_mask_shape_violated :
    (¬ ∀ (shape : List ℕ) (chosen : ℕ), 1 ≤ chosen → chosen ≤ shape.length → taperedShape shape chosen = some shape) ∧
    (¬ ∀ (shape : List ℕ) (chosen ss : ℕ), 1 ≤ chosen → chosen ≤ shape.length → maskShape shape chosen ss false = shape) ∧
    taperedShape [5, 1] 2 = some [5, 5] := by
  refine ⟨fun h => ?_, fun h => ?_, rfl⟩
  · have := h [5, 1] 2 (by norm_num) (by simp)
    simp [taperedShape, bcastShape, bcastShapeRev, bcastLen, maskShape] at this
  · have := h [5, 4] 1 1 le_rfl (by simp)
    simp [maskShape] at this

private theorem bcast_prefix (t s : List ℕ) : bcastShapeRev (t ++ s) t = some (t ++ s) := by
  induction t with
  | nil => cases s <;> rfl
  | cons a t ih => simp [bcastShapeRev, bcastLen, ih]

/-- **C172, proved part.** For images with no axis of size one, or with such axes only in front, tapering keeps the shape; without
squeezing, the mask over two or more axes, or with super-sampling, has the shape of the volume. -/
theorem C172_mask_shape_partial (chosen : ℕ) (t : List ℕ) (k : ℕ) (ht : ∀ n ∈ t, n ≠ 1) :
    taperedShape (List.replicate k 1 ++ t) chosen = some (List.replicate k 1 ++ t) ∧
    ∀ (shape : List ℕ) (ss : ℕ), chosen ≠ 1 ∨ 2 ≤ ss → maskShape shape chosen ss false = shape := by
  constructor
  · have hf : t.filter (· ≠ 1) = t := List.filter_eq_self.2 (by simpa using ht)
    have hr : (List.replicate k 1).filter (· ≠ 1) = [] := by
      rw [List.filter_eq_nil_iff]
      intro a ha
      rw [List.eq_of_mem_replicate ha]; simp
    have hm : maskShape (List.replicate k 1 ++ t) chosen 1 true = t := by
      unfold maskShape
      simp only [if_true]
      split_ifs
      · rw [List.filter_cons_of_neg (by simp), List.filter_append, hf, hr, List.nil_append]
      · rw [List.filter_append, hf, hr, List.nil_append]
    unfold taperedShape bcastShape
    rw [hm, List.reverse_append, bcast_prefix]
    simp
  · intro shape ss h
    unfold maskShape
    simp only [Bool.false_eq_true, if_false]
    rw [if_neg (fun hc => by rcases h with h | h; exacts [h hc.1, absurd hc.2 (by omega)])]

/-- Not vacuous. -/
example : taperedShape [1, 6, 5] 2 = some [1, 6, 5] := (C172_mask_shape_partial 2 [6, 5] 1 (by decide)).1

/-! ## C173: balls -/

theorem fftfreq_emod (N : ℕ) (hN : 0 < N) (z : ℤ) (h1 : -(N : ℤ) ≤ 2 * z) (h2 : 2 * z < N) : fftfreq N (z % N).toNat = z := by
  haveI : NeZero N := ⟨hN.ne'⟩
  refine Eq.trans (congrArg (fftfreq N) ?_) (fftfreq_val (n := N) z h1 h2)
  have hv : (((z : ZMod N).val : ℕ) : ℤ) = z % (N : ℤ) := by rw [ZMod.val_intCast]
  omega

/-- The coordinates of the sub-pixels of the pixel at the offset `t` from the centre. -/
theorem ballCoord_offset (n ss : ℕ) (hss : 0 < ss) (t : ℤ) (ht : 2 * |t| < n) (k : Fin ss) (i : ℕ) (hi : (i : ℤ) = (n / 2 : ℕ) + t) :
    ballCoord n ss ((i + (n - n / 2)) % n * ss + k) = t + ((k : ℝ) - (ss / 2 : ℕ)) / ss := by
  have hn : 0 < n := by have := abs_nonneg t; omega
  have hs : (ss : ℝ) ≠ 0 := by exact_mod_cast hss.ne'
  have habs := abs_lt.1 (show |t| < n by have := abs_nonneg t; omega)
  have hN : 0 < n * ss := Nat.mul_pos hn hss
  have hk := k.isLt
  have e1 : (((i + (n - n / 2)) % n : ℕ) : ℤ) = t % n := by
    rw [Int.natCast_mod, Nat.cast_add, hi, Nat.cast_sub (Nat.div_le_self _ _)]
    rw [show ((n / 2 : ℕ) : ℤ) + t + ((n : ℤ) - (n / 2 : ℕ)) = t + n by ring, Int.add_emod_right]
  set j := (i + (n - n / 2)) % n * ss + (k : ℕ) with hj
  have hle : ss / 2 ≤ j + n * ss := by
    have h1 : ss ≤ n * ss := Nat.le_mul_of_pos_left _ hn
    omega
  have e2 : (j + n * ss - ss / 2) % (n * ss) = ((t * ss + k - (ss / 2 : ℕ)) % ((n * ss : ℕ) : ℤ)).toNat := by
    have : (((j + n * ss - ss / 2) % (n * ss) : ℕ) : ℤ) = (t * ss + k - (ss / 2 : ℕ)) % ((n * ss : ℕ) : ℤ) := by
      rw [Int.natCast_mod, Nat.cast_sub hle, hj]
      push_cast [e1]
      have hq : t % n = t - n * (t / n) := Int.emod_def t n
      have hss2 : ((ss / 2 : ℕ) : ℤ) = (ss : ℤ) / 2 := by push_cast; rfl
      rw [hq]
      rw [show (t - n * (t / n)) * ss + (k : ℤ) + n * ss - (ss : ℤ) / 2 = t * ss + k - (ss : ℤ) / 2 + (n * ss : ℤ) * (1 - t / n) by ring,
        Int.add_mul_emod_self_left]
    omega
  unfold ballCoord
  rw [e2, fftfreq_emod (n * ss) hN]
  · rw [Int.cast_sub, Int.cast_add, Int.cast_mul, Int.cast_natCast, Int.cast_natCast, Int.cast_natCast]
    field_simp
    ring
  · push_cast
    have h1 : (-(n : ℤ) + 1) ≤ 2 * t := by
      have := neg_abs_le t; omega
    have h3 : (-(n : ℤ) + 1) * ss ≤ 2 * t * ss := mul_le_mul_of_nonneg_right h1 (by positivity)
    have h4 : 2 * ((ss : ℤ) / 2) ≤ ss := by omega
    have h5 : (0 : ℤ) ≤ (k : ℕ) := by positivity
    nlinarith
  · push_cast
    have h1 : 2 * t ≤ (n : ℤ) - 1 := by
      have := le_abs_self t; omega
    have h3 : 2 * t * ss ≤ ((n : ℤ) - 1) * ss := mul_le_mul_of_nonneg_right h1 (by positivity)
    have h4 : (ss : ℤ) ≤ 2 * ((ss : ℤ) / 2) + 1 := by omega
    have h5 : ((k : ℕ) : ℤ) + 1 ≤ ss := by exact_mod_cast hk
    nlinarith

/-- The ball at the offset `t` from the centre of the array: the mean over the sub-pixels. -/
theorem ball_offset (shape : Fin d → ℕ) (radius : ℝ) (ss : ℕ) (hss : 0 < ss) (func : Option (ℝ → ℝ)) (t : Fin d → ℤ)
    (ht : ∀ a, 2 * |t a| < shape a) (i : Fin d → ℕ) (hi : ∀ a, (i a : ℤ) = (shape a / 2 : ℕ) + t a) :
    ball shape radius ss func i = (∑ k : Fin d → Fin ss, (fun r : ℝ => (if r < radius then 1 else 0) * func.elim 1 (fun f => f r))
      (Real.sqrt (∑ a, (t a + ((k a : ℝ) - (ss / 2 : ℕ)) / ss) ^ 2))) / (ss : ℝ) ^ d := by
  unfold ball
  simp only [fun (k : Fin d → Fin ss) (a : Fin d) => ballCoord_offset (shape a) ss hss (t a) (ht a) (k a) (i a) (hi a)]

/-- **C173, violated part.** With an even super-sampling the ball is not symmetric about its centre: in a row of three pixels with two
sub-pixels each, a ball of radius 3/4 is `0, 1, 1/2`. -/
theorem C173_ball_violated :
    (¬ ∀ (n ss : ℕ) (radius : ℝ) (t : ℕ), 0 < ss → 2 * t < n →
      ball (fun _ : Fin 1 => n) radius ss none (fun _ => n / 2 - t) = ball (fun _ : Fin 1 => n) radius ss none (fun _ => n / 2 + t)) ∧
    ball (fun _ : Fin 1 => 3) (3 / 4) 2 none (fun _ => 0) = 0 ∧ ball (fun _ : Fin 1 => 3) (3 / 4) 2 none (fun _ => 2) = 1 / 2 := by
  have v : ∀ (t : ℤ) (i : ℕ), 2 * |t| < 3 → (i : ℤ) = 1 + t → ball (fun _ : Fin 1 => 3) (3 / 4) 2 none (fun _ => i) =
      ((if |(t : ℝ) - 1 / 2| < 3 / 4 then 1 else 0) + if |(t : ℝ)| < 3 / 4 then 1 else 0) / 2 := by
    intro t i ht hi
    rw [ball_offset (fun _ : Fin 1 => 3) (3 / 4) 2 (by norm_num) none (fun _ => t) (fun _ => ht) (fun _ => i) (fun _ => by simpa using hi)]
    rw [← (Equiv.funUnique (Fin 1) (Fin 2)).symm.sum_comp]
    simp only [Fin.sum_univ_two, Equiv.funUnique_symm_apply, uniqueElim_const, Finset.univ_unique, Finset.sum_singleton, Real.sqrt_sq_eq_abs,
      Option.elim]
    norm_num
    rw [show (t : ℝ) + -(1 / 2) = t - 1 / 2 by ring]
  have v0 : ball (fun _ : Fin 1 => 3) (3 / 4) 2 none (fun _ => 0) = 0 := by
    rw [v (-1) 0 (by norm_num) (by norm_num)]
    norm_num [abs_of_neg, abs_of_pos]
  have v2 : ball (fun _ : Fin 1 => 3) (3 / 4) 2 none (fun _ => 2) = 1 / 2 := by
    rw [v 1 2 (by norm_num) (by norm_num)]
    norm_num [abs_of_pos]
  refine ⟨fun h => ?_, v0, v2⟩
  have := h 3 2 (3 / 4) 1 (by norm_num) (by norm_num)
  rw [show (fun _ : Fin 1 => 3 / 2 - 1) = fun _ => 0 from rfl, show (fun _ : Fin 1 => 3 / 2 + 1) = fun _ => 2 from rfl, v0, v2] at this
  norm_num at this

/-- **C173, proved part.** Without `func`, the values of `ball` are between 0 and 1; with an odd super-sampling (the default is 5), the ball
is symmetric about the pixel `n // 2` under reflections along any axes, and its value at an offset `t` is the mean of the indicator of
the radius (times `func`) over the `ss` parts of each pixel, at `t + (k - (ss - 1) / 2) / ss`. -/
theorem C173_ball_partial (shape : Fin d → ℕ) (radius : ℝ) (h : ℕ) (func : Option (ℝ → ℝ)) :
    (∀ (ss : ℕ) (i : Fin d → ℕ), 0 < ss → 0 ≤ ball shape radius ss none i ∧ ball shape radius ss none i ≤ 1) ∧
    (∀ (t : Fin d → ℤ), (∀ a, 2 * |t a| < shape a) → ∀ i : Fin d → ℕ, (∀ a, (i a : ℤ) = (shape a / 2 : ℕ) + t a) →
      ball shape radius (2 * h + 1) func i = (∑ k : Fin d → Fin (2 * h + 1), (fun r : ℝ => (if r < radius then 1 else 0) * func.elim 1 (fun f => f r))
        (Real.sqrt (∑ a, (t a + ((k a : ℝ) - h) / (2 * h + 1 : ℕ)) ^ 2))) / ((2 * h + 1 : ℕ) : ℝ) ^ d) ∧
    (∀ (t : Fin d → ℤ) (flip : Fin d → Bool), (∀ a, 2 * |t a| < shape a) → ∀ i i' : Fin d → ℕ, (∀ a, (i a : ℤ) = (shape a / 2 : ℕ) + t a) →
      (∀ a, (i' a : ℤ) = (shape a / 2 : ℕ) + if flip a then -t a else t a) →
      ball shape radius (2 * h + 1) func i = ball shape radius (2 * h + 1) func i') := by
  have hh : (2 * h + 1) / 2 = h := by omega
  refine ⟨fun ss i hss => ?_, fun t ht i hi => ?_, fun t flip ht i i' hi hi' => ?_⟩
  · have hpow : (0 : ℝ) < (ss : ℝ) ^ d := pow_pos (by exact_mod_cast hss) d
    unfold ball
    simp only [Option.elim, mul_one]
    constructor
    · exact div_nonneg (Finset.sum_nonneg fun k _ => by split_ifs <;> norm_num) hpow.le
    · rw [div_le_one hpow, ← mul_one ((ss : ℝ) ^ d), ← sum_fin_const ss d 1]
      exact Finset.sum_le_sum fun k _ => by split_ifs <;> norm_num
  · rw [ball_offset shape radius (2 * h + 1) (by omega) func t ht i hi, hh]
  · rw [ball_offset shape radius (2 * h + 1) (by omega) func t ht i hi,
      ball_offset shape radius (2 * h + 1) (by omega) func (fun a => if flip a then -t a else t a)
        (fun a => by cases flip a <;> simpa using ht a) i' hi', hh]
    congr 1
    refine Fintype.sum_equiv (Equiv.piCongrRight fun a => if flip a then (Fin.revPerm : Equiv.Perm (Fin (2 * h + 1))) else Equiv.refl _) _ _ fun k => ?_
    congr 2
    refine Finset.sum_congr rfl fun a _ => ?_
    simp only [Equiv.piCongrRight_apply, Pi.map_apply]
    cases hf : flip a with
    | false => simp
    | true =>
      have hk := (k a).isLt
      simp only [if_true, Fin.revPerm_apply, Fin.val_rev]
      rw [Nat.cast_sub (show (k a : ℕ) + 1 ≤ 2 * h + 1 by omega)]
      push_cast
      ring

/-- Not vacuous: the default super-sampling, at the two sides of the centre of a row of 7 pixels. -/
example : ball (fun _ : Fin 1 => 7) 2 5 none (fun _ => 1) = ball (fun _ : Fin 1 => 7) 2 5 none (fun _ => 5) :=
  (C173_ball_partial (fun _ : Fin 1 => 7) 2 2 none).2.2 (fun _ => -2) (fun _ => true) (fun _ => by norm_num) (fun _ => 1) (fun _ => 5)
    (fun _ => by norm_num) (fun _ => by norm_num)

end Verif
