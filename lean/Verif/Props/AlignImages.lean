import Verif.Model.AlignImages
import Verif.Props.AlignVolumes
import Verif.Props.AlignVertical
import Verif.Props.Masks

/-!
# Camera tilt, markers, rotation and scale

C216: the tilt of the camera. C217: the tracking of markers. C218: rotation and scale of images.
-/

namespace Verif

open ZMod Complex

/-! ## C216 -/

/-- The line of the centres of rotation of the rows: at row `v`, `a` times its height above the middle of the image plus `b`. -/
noncomputable def centreLine (H : ℕ) (b a : ℝ) (v : Fin H) : ℝ := a * ((v : ℕ) - ((H : ℝ) - 1) / 2) + b

theorem line_unique {H : ℕ} (hH : 2 ≤ H) (b a b' a' : ℝ) (h : ∀ v : Fin H, rowCoord v * a' + b' - centreLine H b a v = 0) : b' = b ∧ a' = a := by
  have h0 := h ⟨0, by omega⟩
  have h1 := h ⟨1, by omega⟩
  unfold rowCoord centreLine at h0 h1
  push_cast at h0 h1
  have : a' = a := by linarith
  subst this
  exact ⟨by linarith, rfl⟩

theorem lsq_exact {H : ℕ} (hH : 2 ≤ H) (b a b' a' : ℝ) : IsLsqLine rowCoord (centreLine H b a) b' a' ↔ b' = b ∧ a' = a := by
  have z : ∀ v : Fin H, rowCoord v * a + b - centreLine H b a v = 0 := fun v => by unfold rowCoord centreLine; ring
  constructor
  · intro h
    have h1 := h b a
    rw [Finset.sum_congr rfl (fun v _ => by rw [z v] : ∀ v ∈ Finset.univ, (rowCoord v * a + b - centreLine H b a v) ^ 2 = (0 : ℝ) ^ 2)] at h1
    have h2 : ∑ v : Fin H, (rowCoord v * a' + b' - centreLine H b a v) ^ 2 = 0 :=
      le_antisymm (by simpa using h1) (Finset.sum_nonneg fun v _ => sq_nonneg _)
    rw [Finset.sum_eq_zero_iff_of_nonneg fun v _ => sq_nonneg _] at h2
    exact line_unique hH b a b' a' fun v => by simpa using h2 v (Finset.mem_univ v)
  · rintro ⟨rfl, rfl⟩ b2 a2
    rw [Finset.sum_eq_zero fun v _ => by rw [z v]; norm_num]
    exact Finset.sum_nonneg fun v _ => sq_nonneg _

theorem l1_exact {H : ℕ} (hH : 2 ≤ H) (b a b' a' : ℝ) : IsL1Line rowCoord (centreLine H b a) b' a' ↔ b' = b ∧ a' = a := by
  have z : ∀ v : Fin H, rowCoord v * a + b - centreLine H b a v = 0 := fun v => by unfold rowCoord centreLine; ring
  constructor
  · intro h
    have h1 := h b a
    rw [Finset.sum_eq_zero (fun v _ => by rw [z v, abs_zero] : ∀ v ∈ Finset.univ, |rowCoord v * a + b - centreLine H b a v| = 0)] at h1
    have h2 : ∑ v : Fin H, |rowCoord v * a' + b' - centreLine H b a v| = 0 := le_antisymm h1 (Finset.sum_nonneg fun v _ => abs_nonneg _)
    rw [Finset.sum_eq_zero_iff_of_nonneg fun v _ => abs_nonneg _] at h2
    exact line_unique hH b a b' a' fun v => by simpa using h2 v (Finset.mem_univ v)
  · rintro ⟨rfl, rfl⟩ b2 a2
    rw [Finset.sum_eq_zero fun v _ => by rw [z v, abs_zero]]
    exact Finset.sum_nonneg fun v _ => abs_nonneg _

/-- The row `r1` is the row `r2` moved by `s` pixels. Without padding, around the detector, for a row that no smaller move leaves as it is; with
padding, both being within the detector. -/
def RowMoved (n : ℕ) (pad : Bool) (r1 r2 : ℕ → ℝ) (s : ℤ) : Prop :=
  if pad then ∃ f : ℤ → ℝ, (∃ k, f k ≠ 0) ∧ (∀ k, f k ≠ 0 → 0 ≤ k ∧ k < n) ∧ (∀ k, f k ≠ 0 → 0 ≤ k + s ∧ k + s < n) ∧
    (∀ j : ℕ, j < n → r2 j = f j) ∧ ∀ j : ℕ, j < n → r1 j = f (j - s)
  else -(n : ℤ) ≤ 2 * s ∧ 2 * s < n ∧ (∀ j : ZMod n, r1 j.val = r2 (j - s : ZMod n).val) ∧
    ∀ b : ZMod n, (∀ j : ZMod n, r2 (j + b).val = r2 j.val) → b = 0

theorem tiltShift_moved {n : ℕ} [NeZero n] [NeZero (2 * n)] (hn : 2 ≤ n) (pad : Bool) (hr : pad = false → Even n) (r1 r2 : ℕ → ℝ) (s : ℤ)
    (h : RowMoved n pad r1 r2 s) : tiltShift (n := n) pad r1 r2 = some (s : ℝ) := by
  cases pad with
  | false =>
    simp only [RowMoved, Bool.false_eq_true, if_false] at h
    simp only [tiltShift, Bool.false_eq_true, if_false]
    exact C96_row_shift hn true (fun _ => hr rfl) _ _ h.2.2.2 s h.2.2.1 ⟨h.1, h.2.1⟩ 2
  | true =>
    simp only [RowMoved, if_true] at h
    obtain ⟨f, hne, h1, h2, h3, h4⟩ := h
    simp only [tiltShift, if_true]
    have e1 : padRow n r1 = padRow n fun k => f ((k : ℤ) - s) := by
      funext j
      unfold padRow
      split_ifs with hj
      · exact h4 _ hj
      · rfl
    have e2 : padRow n r2 = padRow n fun k => f (k : ℤ) := by
      funext j
      unfold padRow
      split_ifs with hj
      · exact h3 _ hj
      · rfl
    rw [e1, e2]
    refine C96_padded_row_shift true (fun k => f (k - s)) f h1 ?_ hne s (fun k => rfl) 2
    intro k hk
    have := h2 (k - s) hk
    constructor <;> [linarith [this.1]; linarith [this.2]]

theorem tilt_exact {H n : ℕ} [NeZero n] [NeZero (2 * n)] (hH : 2 ≤ H) (hn : 2 ≤ n) (pad fitL1 : Bool) (hr : pad = false → Even n)
    (img1 img2 : Fin H → ℕ → ℝ) (s : Fin H → ℤ) (hs : ∀ v, RowMoved n pad (img1 v) (img2 v) (s v)) (b a : ℝ) (hl : ∀ v, (s v : ℝ) / 2 = centreLine H b a v)
    (r : Option (ℝ × ℝ)) : CameraTilt (n := n) pad fitL1 img1 img2 r ↔ r = if a = 0 then none else some (b, -a / 2 * 180 / Real.pi) := by
  have hsh : ∀ v, tiltShift (n := n) pad (img1 v) (img2 v) = some (s v : ℝ) := fun v => tiltShift_moved hn pad hr _ _ _ (hs v)
  unfold CameraTilt
  rw [if_pos (fun v => by rw [hsh v]; rfl)]
  have hc : (fun v => (tiltShift (n := n) pad (img1 v) (img2 v)).getD 0 / 2) = centreLine H b a := by
    funext v
    rw [hsh v, ← hl v]
    rfl
  simp only [hc]
  constructor
  · rintro ⟨b0, a0, h0, h1⟩
    obtain ⟨rfl, rfl⟩ := (lsq_exact hH b a b0 a0).1 h0
    by_cases ha : a0 = 0
    · rw [if_pos ha] at h1 ⊢
      exact h1
    · rw [if_neg ha] at h1 ⊢
      obtain ⟨b', a', h2, h3⟩ := h1
      have : b' = b0 ∧ a' = a0 := by
        cases fitL1 with
        | true => exact (l1_exact hH b0 a0 b' a').1 (by simpa using h2)
        | false => simpa using h2
      rw [h3, this.1, this.2]
  · intro h
    refine ⟨b, a, (lsq_exact hH b a b a).2 ⟨rfl, rfl⟩, ?_⟩
    by_cases ha : a = 0
    · rw [if_pos ha] at h ⊢
      exact h
    · rw [if_neg ha] at h ⊢
      refine ⟨b, a, ?_, h⟩
      cases fitL1 with
      | true => simpa using (l1_exact hH b a b a).2 ⟨rfl, rfl⟩
      | false => simp

/-- **C216 (partial).** If the rows of the first image are those of the second, each moved by twice `a * x + b` at height `x` above the middle (so that the
centres of rotation of the rows are on this line, which is inclined), then the centre of rotation that is found is `b`, whichever norm is used for
the line. What is missing: the angle is half of the slope of the line (`C216_tilt_violated`), and a line that is not inclined is refused
(`C216_no_tilt_violated`). -/
theorem C216_centre_partial {H n : ℕ} [NeZero n] [NeZero (2 * n)] (hH : 2 ≤ H) (hn : 2 ≤ n) (pad fitL1 : Bool) (hr : pad = false → Even n)
    (img1 img2 : Fin H → ℕ → ℝ) (s : Fin H → ℤ) (hs : ∀ v, RowMoved n pad (img1 v) (img2 v) (s v)) (b a : ℝ) (ha : a ≠ 0)
    (hl : ∀ v, (s v : ℝ) / 2 = centreLine H b a v) (r : Option (ℝ × ℝ)) :
    CameraTilt (n := n) pad fitL1 img1 img2 r ↔ r = some (b, -a / 2 * 180 / Real.pi) := by
  rw [tilt_exact hH hn pad fitL1 hr img1 img2 s hs b a hl, if_neg ha]

/-- The images of the counterexamples: points, at column 1 in the second image, and moved by `s v`. -/
private noncomputable def pointRows (s : Fin 3 → ℤ) (v : Fin 3) (j : ℕ) : ℝ := if (j : ZMod 4) = 1 + s v then 1 else 0

private theorem pointRows_moved (s : Fin 3 → ℤ) (hs : ∀ v, -2 ≤ s v ∧ s v < 2) (v : Fin 3) :
    RowMoved 4 false (pointRows s v) (pointRows (fun _ => 0) v) (s v) := by
  simp only [RowMoved, Bool.false_eq_true, if_false]
  refine ⟨by have := (hs v).1; push_cast; omega, by have := (hs v).2; push_cast; omega, fun j => ?_, fun b hb => ?_⟩
  · unfold pointRows
    rw [ZMod.natCast_zmod_val, ZMod.natCast_zmod_val]
    have : (j = 1 + (s v : ZMod 4)) = (j - (s v : ZMod 4) = 1 + ((0 : ℤ) : ZMod 4)) := by
      rw [eq_iff_iff, sub_eq_iff_eq_add]
      simp
    simp only [this]
  · have := hb 1
    unfold pointRows at this
    rw [ZMod.natCast_zmod_val, ZMod.natCast_zmod_val] at this
    simp only [Int.cast_zero, add_zero, if_true] at this
    by_contra hne
    rw [if_neg (by intro h; exact hne (by simpa using h))] at this
    norm_num at this

/-- The hypotheses of `C216_centre_partial` are met: three rows moved by -1, 0 and 1 pixels. -/
example (r : Option (ℝ × ℝ)) : CameraTilt (n := 4) false true (pointRows fun v => (v : ℕ) - 1) (pointRows fun _ => 0) r ↔
    r = some (0, -(1 / 2) / 2 * 180 / Real.pi) :=
  C216_centre_partial (by norm_num) (by norm_num) false true (fun _ => by decide) _ _ (fun v => (v : ℕ) - 1)
    (fun v => pointRows_moved (fun v => (v : ℕ) - 1) (fun v => by have := v.2; constructor <;> omega) v) 0 (1 / 2) (by norm_num)
    (fun v => by unfold centreLine; push_cast; ring) r

/-- **C216 (violated).** The tilt (in radians) is the inclination of the line of the centres of rotation, with the opposite sign, up to terms of the
third order of the slope (so that the slope, and the angle whose tangent it is, are both accepted). It is half of it. -/
theorem C216_tilt_violated : ¬ ∀ (H n : ℕ) (_ : NeZero n) (_ : NeZero (2 * n)) (fitL1 : Bool) (img1 img2 : Fin H → ℕ → ℝ) (s : Fin H → ℤ) (b a t : ℝ),
    2 ≤ H → 2 ≤ n → Even n → (∀ v, RowMoved n false (img1 v) (img2 v) (s v)) → (∀ v, (s v : ℝ) / 2 = centreLine H b a v) → a ≠ 0 →
    CameraTilt (n := n) false fitL1 img1 img2 (some (b, t)) → |t * Real.pi / 180 + a| ≤ |a| ^ 3 := by
  intro h
  have h1 := h 3 4 inferInstance inferInstance true (pointRows fun v => (v : ℕ) - 1) (pointRows fun _ => 0) (fun v => (v : ℕ) - 1) 0 (1 / 2)
    (-(1 / 2) / 2 * 180 / Real.pi) (by norm_num) (by norm_num) (by decide)
    (fun v => pointRows_moved (fun v => (v : ℕ) - 1) (fun v => by have := v.2; constructor <;> omega) v)
    (fun v => by unfold centreLine; push_cast; ring) (by norm_num)
    ((C216_centre_partial (by norm_num) (by norm_num) false true (fun _ => by decide) _ _ (fun v => (v : ℕ) - 1)
      (fun v => pointRows_moved (fun v => (v : ℕ) - 1) (fun v => by have := v.2; constructor <;> omega) v) 0 (1 / 2) (by norm_num)
      (fun v => by unfold centreLine; push_cast; ring) _).2 rfl)
  have e : -(1 / 2) / 2 * 180 / Real.pi * Real.pi / 180 = -(1 / 4 : ℝ) := by
    have := Real.pi_ne_zero
    field_simp
    norm_num
  rw [e] at h1
  norm_num [abs_of_pos] at h1

/-- **C216 (violated).** Images whose rows are all moved by the same whole number of pixels, twice the centre of rotation, are given this centre and no
tilt: the call raises an exception instead, even for two images that are the same. -/
theorem C216_no_tilt_violated : ¬ ∀ (H n : ℕ) (_ : NeZero n) (_ : NeZero (2 * n)) (fitL1 : Bool) (img1 img2 : Fin H → ℕ → ℝ) (s : ℤ),
    2 ≤ H → 2 ≤ n → Even n → (∀ v, RowMoved n false (img1 v) (img2 v) s) → CameraTilt (n := n) false fitL1 img1 img2 (some ((s : ℝ) / 2, 0)) := by
  intro h
  have h1 := h 3 4 inferInstance inferInstance true (pointRows fun _ => 0) (pointRows fun _ => 0) 0 (by norm_num) (by norm_num) (by decide)
    (fun v => pointRows_moved (fun _ => 0) (fun v => by norm_num) v)
  rw [tilt_exact (by norm_num) (by norm_num) false true (fun _ => by decide) _ _ (fun _ => 0)
      (fun v => pointRows_moved (fun _ => 0) (fun v => by norm_num) v) 0 0 (fun v => by unfold centreLine; simp)] at h1
  simp at h1

/-- **C216.** … and no call on such images gives anything but the exception. -/
theorem C216_no_tilt_refused {H n : ℕ} [NeZero n] [NeZero (2 * n)] (hH : 2 ≤ H) (hn : 2 ≤ n) (pad fitL1 : Bool) (hr : pad = false → Even n)
    (img1 img2 : Fin H → ℕ → ℝ) (s : ℤ) (hs : ∀ v, RowMoved n pad (img1 v) (img2 v) s) (r : Option (ℝ × ℝ)) :
    CameraTilt (n := n) pad fitL1 img1 img2 r ↔ r = none := by
  rw [tilt_exact hH hn pad fitL1 hr img1 img2 (fun _ => s) hs ((s : ℝ) / 2) 0 (fun v => by unfold centreLine; simp), if_pos rfl]

/-! ## C217 -/

/-- **C217 (partial).** In an image that is the marker image moved (around the borders) by `sv` rows and `su` columns, the position that is found is the
middle of the image of the marker, moved by as much: for an even number of columns. -/
theorem C217_moves_partial {m n : ℕ} [NeZero m] [NeZero n] (hm : 2 ≤ m) (hn : 2 ≤ n) (he : Even n) (img marker : ZMod m → ZMod n → ℝ) (hp : Aperiodic marker) (sv su : ℤ)
    (h : IsShifted img marker sv su) (hv : -(m : ℤ) ≤ 2 * sv ∧ 2 * sv < m) (hu : -(n : ℤ) ≤ 2 * su ∧ 2 * su < n) :
    trackMarker img marker = some ((sv : ℝ) + (m : ℝ) / 2, (su : ℝ) + (n : ℝ) / 2) := by
  unfold trackMarker
  rw [C96_image_shift hm hn true (fun _ => he) img marker hp sv su h hv hu 2]
  rfl

/-- The share of the sub-samples of the pixel at `(z, w)` from the centre that are within the radius: they are at the middles of the `ss * ss` equal parts
of the pixel, for an odd `ss = 2 * h + 1`. -/
noncomputable def diskShare (radius : ℝ) (h : ℕ) (z w : ℤ) : ℝ :=
  (∑ a ∈ Finset.range (2 * h + 1), ∑ b ∈ Finset.range (2 * h + 1),
    if (z + ((a : ℝ) - h) / ((2 * h + 1 : ℕ) : ℝ)) ^ 2 + (w + ((b : ℝ) - h) / ((2 * h + 1 : ℕ) : ℝ)) ^ 2 < radius ^ 2 then (1 : ℝ) else 0) / (((2 * h + 1 : ℕ) : ℝ) * ((2 * h + 1 : ℕ) : ℝ))

theorem diskCoord_eq (m h i a R : ℕ) (hi : i < m) (ha : a < 2 * h + 1) (hR : R + 1 ≤ m / 2) :
    diskCoord (m * (2 * h + 1)) (2 * h + 1) (((i + m - m / 2) % m) * (2 * h + 1) + a) = ((i : ℤ) - (m / 2 : ℕ)) * (2 * h + 1 : ℕ) + a - h ∨
    ((R : ℤ) * (2 * h + 1 : ℕ) ≤ |diskCoord (m * (2 * h + 1)) (2 * h + 1) (((i + m - m / 2) % m) * (2 * h + 1) + a)| ∧
      (R : ℤ) * (2 * h + 1 : ℕ) ≤ |((i : ℤ) - (m / 2 : ℕ)) * (2 * h + 1 : ℕ) + a - h|) := by
  obtain ⟨c, hc⟩ : ∃ c, c = m / 2 := ⟨_, rfl⟩
  have hcm : m = 2 * c ∨ m = 2 * c + 1 := by omega
  rw [← hc] at hR ⊢
  obtain ⟨s, hs⟩ : ∃ s, s = 2 * h + 1 := ⟨_, rfl⟩
  rw [← hs] at ha ⊢
  have hs2 : s / 2 = h := by omega
  unfold diskCoord
  rw [hs2]
  set z : ℤ := ((i : ℤ) - (c : ℕ)) * (s : ℕ) + a - h with hz
  set d := m * s with hd
  have hdpos : 0 < d := Nat.mul_pos (by omega) (by omega)
  have hds : (d : ℤ) = (m : ℤ) * s := by rw [hd]; push_cast; ring
  have hsd : s ≤ d := by
    calc s = 1 * s := (one_mul s).symm
      _ ≤ m * s := Nat.mul_le_mul_right s (by omega)
  -- the position, modulo the size
  have key : ((i + m - c) % m * s + a + d - h) % d = (z % (d : ℤ)).toNat := by
    have e1 : ((((i + m - c) % m * s + a + d - h) % d : ℕ) : ℤ) = z % (d : ℤ) := by
      rw [Int.natCast_mod]
      have hcast : (((i + m - c) % m * s + a + d - h : ℕ) : ℤ) = (((i + m - c) % m : ℕ) : ℤ) * s + a + d - h := by
        rw [Nat.cast_sub (by omega)]
        push_cast
        ring
      rw [hcast]
      rcases Nat.lt_or_ge i c with hic | hic
      · rw [Nat.mod_eq_of_lt (by omega), Nat.cast_sub (by omega)]
        have : (((i + m : ℕ) : ℤ) - (c : ℕ)) * s + a + d - h = z + d * 2 := by
          rw [hz, hds]; push_cast; ring
        rw [this, Int.add_mul_emod_self_left]
      · have : (i + m - c) % m = i - c := by
          rw [show i + m - c = (i - c) + m by omega, Nat.add_mod_right, Nat.mod_eq_of_lt (by omega)]
        rw [this, Nat.cast_sub hic]
        have : ((i : ℤ) - (c : ℕ)) * s + a + d - h = z + d * 1 := by
          rw [hz]; ring
        rw [this, Int.add_mul_emod_self_left]
    have := Int.emod_nonneg z (by omega : (d : ℤ) ≠ 0)
    omega
  rw [key]
  have hsz : (s : ℤ) = 2 * h + 1 := by rw [hs]; push_cast; ring
  have hcs : (c : ℤ) * s + s ≤ m * s + s ∧ (0 : ℤ) ≤ (c : ℤ) * s := ⟨by nlinarith [show (c : ℤ) ≤ m by omega], by positivity⟩
  have hRs : (R : ℤ) * s + s ≤ c * s := by
    have : (R : ℤ) + 1 ≤ c := by exact_mod_cast hR
    nlinarith
  have hms : (m : ℤ) * s = 2 * (c * s) ∨ (m : ℤ) * s = 2 * (c * s) + s := by
    rcases hcm with hh | hh
    · left; rw [hh]; push_cast; ring
    · right; rw [hh]; push_cast; ring
  have hz' : z = (i : ℤ) * s - c * s + a - h := by rw [hz]; ring
  have hup : (i : ℤ) * s + s ≤ m * s := by
    have : (i : ℤ) + 1 ≤ m := by omega
    nlinarith
  rcases Nat.eq_zero_or_pos i with h0 | h0
  · have hi0 : (i : ℤ) * s = 0 := by rw [h0]; simp
    rw [hi0] at hz' hup
    by_cases hlow : -(d : ℤ) ≤ 2 * z
    · left
      exact fftfreq_emod d hdpos z hlow (by omega)
    · right
      have hm2 : (m : ℤ) * s = 2 * (c * s) := by
        rcases hms with hh | hh
        · exact hh
        · omega
      have e2 : z % (d : ℤ) = (z + d) % d := by simp
      have e3 : z + d = (c * s : ℤ) + a - h := by rw [hz', hds, hm2]; ring
      have e4 : (z + (d : ℤ)) % d = z + d := Int.emod_eq_of_lt (by omega) (by omega)
      have e5 : fftfreq d (z % (d : ℤ)).toNat = z + d ∨ fftfreq d (z % (d : ℤ)).toNat = z := by
        rw [e2, e4]
        unfold fftfreq
        split_ifs
        · left; omega
        · right; omega
      constructor
      · rcases e5 with e5 | e5
        · rw [e5, e3, le_abs]
          left; omega
        · rw [e5, le_abs]
          right; omega
      · rw [le_abs]
        right; omega
  · left
    have hi1 : (s : ℤ) ≤ (i : ℤ) * s := by
      have : (1 : ℤ) ≤ i := by exact_mod_cast h0
      nlinarith
    refine fftfreq_emod d hdpos z ?_ ?_
    · rcases hms with hh | hh <;> omega
    · rcases hms with hh | hh <;> omega

theorem diskProbe_eq (m n h R : ℕ) (radius : ℝ) (hr : 0 < radius) (hrR : radius ≤ R) (hm : R + 1 ≤ m / 2) (hn : R + 1 ≤ n / 2) (i j : ℕ) (hi : i < m) (hj : j < n) :
    diskProbe m n radius (2 * h + 1) i j = diskShare radius h ((i : ℤ) - (m / 2 : ℕ)) ((j : ℤ) - (n / 2 : ℕ)) := by
  unfold diskProbe diskShare
  congr 1
  refine Finset.sum_congr rfl fun a ha => Finset.sum_congr rfl fun b hb => ?_
  have h1 := diskCoord_eq m h i a R hi (Finset.mem_range.1 ha) hm
  have h2 := diskCoord_eq n h j b R hj (Finset.mem_range.1 hb) hn
  set q1 := diskCoord (m * (2 * h + 1)) (2 * h + 1) (((i + m - m / 2) % m) * (2 * h + 1) + a)
  set q2 := diskCoord (n * (2 * h + 1)) (2 * h + 1) (((j + n - n / 2) % n) * (2 * h + 1) + b)
  obtain ⟨s, hs⟩ : ∃ s, s = 2 * h + 1 := ⟨_, rfl⟩
  rw [← hs] at h1 h2 ⊢
  have hspos : (0 : ℝ) < (s : ℝ) := by
    have : 0 < s := by omega
    exact_mod_cast this
  set z1 : ℤ := ((i : ℤ) - (m / 2 : ℕ)) * (s : ℕ) + a - h with hz1
  set z2 : ℤ := ((j : ℤ) - (n / 2 : ℕ)) * (s : ℕ) + b - h with hz2
  have e1 : ((((i : ℤ) - (m / 2 : ℕ) : ℤ) : ℝ) + ((a : ℝ) - h) / (s : ℝ)) = (z1 : ℝ) / s := by
    rw [hz1]; push_cast; field_simp; ring
  have e2 : ((((j : ℤ) - (n / 2 : ℕ) : ℤ) : ℝ) + ((b : ℝ) - h) / (s : ℝ)) = (z2 : ℝ) / s := by
    rw [hz2]; push_cast; field_simp; ring
  rw [e1, e2]
  have c1 : (Real.sqrt ((q1 : ℝ) ^ 2 + (q2 : ℝ) ^ 2) < radius * (s : ℝ)) ↔ (q1 : ℝ) ^ 2 + (q2 : ℝ) ^ 2 < (radius * s) ^ 2 :=
    Real.sqrt_lt' (mul_pos hr hspos)
  have c2 : (((z1 : ℝ) / s) ^ 2 + ((z2 : ℝ) / s) ^ 2 < radius ^ 2) ↔ (z1 : ℝ) ^ 2 + (z2 : ℝ) ^ 2 < (radius * s) ^ 2 := by
    rw [div_pow, div_pow, ← add_div, div_lt_iff₀ (by positivity), mul_pow]
  have far : ∀ (q : ℤ) (x : ℝ), (R : ℤ) * s ≤ |q| → ¬ ((q : ℝ) ^ 2 + x ^ 2 < (radius * s) ^ 2) := by
    intro q x hq hlt
    have h3 : (R : ℝ) * s ≤ |(q : ℝ)| := by exact_mod_cast hq
    have h4 : radius * s ≤ |(q : ℝ)| := le_trans (mul_le_mul_of_nonneg_right hrR hspos.le) h3
    have h5 : (radius * s) ^ 2 ≤ |(q : ℝ)| ^ 2 := pow_le_pow_left₀ (mul_nonneg hr.le hspos.le) h4 2
    rw [sq_abs] at h5
    nlinarith [sq_nonneg x]
  have key : ((q1 : ℝ) ^ 2 + (q2 : ℝ) ^ 2 < (radius * s) ^ 2) ↔ ((z1 : ℝ) ^ 2 + (z2 : ℝ) ^ 2 < (radius * s) ^ 2) := by
    rcases h1 with h1 | ⟨h1, h1'⟩
    · rcases h2 with h2 | ⟨h2, h2'⟩
      · rw [h1, h2]
      · refine iff_of_false ?_ ?_
        · rw [add_comm]; exact far q2 q1 h2
        · rw [add_comm]; exact far z2 z1 h2'
    · exact iff_of_false (far q1 q2 h1) (far z1 z2 h1')
  simp only [c1, c2, key]

/-- A bright spot of half-width `S` around `(0, 0)`, the same on opposite sides. -/
structure Spot (S : ℕ) (f : ℤ → ℤ → ℝ) : Prop where
  nonneg : ∀ z w, 0 ≤ f z w
  symm : ∀ z w, f (-z) (-w) = f z w
  supp : ∀ z w, f z w ≠ 0 → |z| ≤ S ∧ |w| ≤ S
  pos : 0 < f 0 0

theorem spot_share (radius : ℝ) (h R : ℕ) (hr : 0 < radius) (hrR : radius ≤ R) : Spot R (diskShare radius h) := by
  obtain ⟨s, hs⟩ : ∃ s, s = 2 * h + 1 := ⟨_, rfl⟩
  have hspos : (0 : ℝ) < (s : ℝ) := by
    have : 0 < s := by omega
    exact_mod_cast this
  have hsr : (s : ℝ) = 2 * h + 1 := by rw [hs]; push_cast; ring
  have hsq : (0 : ℝ) ≤ (s : ℝ) * s := by positivity
  have nn : ∀ z w : ℤ, 0 ≤ ∑ a ∈ Finset.range s, ∑ b ∈ Finset.range s,
      if (z + ((a : ℝ) - h) / (s : ℝ)) ^ 2 + (w + ((b : ℝ) - h) / (s : ℝ)) ^ 2 < radius ^ 2 then (1 : ℝ) else 0 :=
    fun z w => Finset.sum_nonneg fun a _ => Finset.sum_nonneg fun b _ => by split_ifs <;> norm_num
  constructor
  · intro z w
    unfold diskShare
    rw [← hs]
    exact div_nonneg (nn z w) hsq
  · intro z w
    unfold diskShare
    rw [← hs]
    congr 1
    rw [← Finset.sum_range_reflect]
    refine Finset.sum_congr rfl fun a ha => ?_
    rw [← Finset.sum_range_reflect]
    refine Finset.sum_congr rfl fun b hb => ?_
    have ha' := Finset.mem_range.1 ha
    have hb' := Finset.mem_range.1 hb
    have e : ∀ (x : ℕ) (y : ℤ), x < s → ((((-y : ℤ)) : ℝ) + (((s - 1 - x : ℕ) : ℝ) - h) / (s : ℝ)) ^ 2 = ((y : ℝ) + ((x : ℝ) - h) / (s : ℝ)) ^ 2 := by
      intro x y hx
      have : ((s - 1 - x : ℕ) : ℝ) = s - 1 - x := by
        rw [Nat.cast_sub (by omega), Nat.cast_sub (by omega)]
        norm_num
      rw [this, hsr]
      push_cast
      rw [← neg_sq]
      congr 1
      field_simp
      ring
    rw [e a z ha', e b w hb']
  · intro z w hne
    have : ∃ a < s, ∃ b < s, (z + ((a : ℝ) - h) / (s : ℝ)) ^ 2 + (w + ((b : ℝ) - h) / (s : ℝ)) ^ 2 < radius ^ 2 := by
      by_contra hno
      push Not at hno
      apply hne
      unfold diskShare
      rw [← hs]
      rw [Finset.sum_eq_zero, zero_div]
      intro a ha
      refine Finset.sum_eq_zero fun b hb => ?_
      rw [if_neg (not_lt.2 (hno a (Finset.mem_range.1 ha) b (Finset.mem_range.1 hb)))]
    obtain ⟨a, ha, b, hb, hlt⟩ := this
    have one : ∀ (x : ℕ) (y : ℤ), x < s → (y + ((x : ℝ) - h) / (s : ℝ)) ^ 2 < radius ^ 2 → |y| ≤ (R : ℤ) := by
      intro x y hx hl
      have h1 := abs_lt_of_sq_lt_sq hl hr.le
      have h2 : |((x : ℝ) - h) / s| < 1 := by
        rw [abs_div, abs_of_pos hspos, div_lt_one hspos, abs_lt]
        have : (x : ℝ) ≤ s - 1 := by
          have : x + 1 ≤ s := hx
          have : ((x + 1 : ℕ) : ℝ) ≤ s := by exact_mod_cast this
          push_cast at this; linarith
        have hx0 : (0 : ℝ) ≤ x := Nat.cast_nonneg x
        have hh0 : (0 : ℝ) ≤ h := Nat.cast_nonneg h
        constructor <;> linarith
      have h3 : |(y : ℝ)| < R + 1 := by
        have := abs_add_le (y + ((x : ℝ) - h) / (s : ℝ)) (-(((x : ℝ) - h) / (s : ℝ)))
        rw [abs_neg, add_neg_cancel_right] at this
        linarith
      have h4 : |y| < (R : ℤ) + 1 := by exact_mod_cast h3
      omega
    exact ⟨one a z ha (by nlinarith [sq_nonneg ((w : ℝ) + ((b : ℝ) - h) / (s : ℝ))]), one b w hb (by nlinarith [sq_nonneg ((z : ℝ) + ((a : ℝ) - h) / (s : ℝ))])⟩
  · unfold diskShare
    rw [← hs]
    refine div_pos ?_ (by positivity)
    have hmem : h ∈ Finset.range s := Finset.mem_range.2 (by omega)
    refine lt_of_lt_of_le one_pos (le_trans ?_ (Finset.single_le_sum (f := fun a : ℕ => ∑ b ∈ Finset.range s,
      if (((0 : ℤ) : ℝ) + ((a : ℝ) - h) / (s : ℝ)) ^ 2 + (((0 : ℤ) : ℝ) + ((b : ℝ) - h) / (s : ℝ)) ^ 2 < radius ^ 2 then (1 : ℝ) else 0)
      (fun a _ => Finset.sum_nonneg fun b _ => by split_ifs <;> norm_num) hmem))
    refine le_trans ?_ (Finset.single_le_sum (f := fun b : ℕ =>
      if (((0 : ℤ) : ℝ) + ((h : ℝ) - h) / (s : ℝ)) ^ 2 + (((0 : ℤ) : ℝ) + ((b : ℝ) - h) / (s : ℝ)) ^ 2 < radius ^ 2 then (1 : ℝ) else 0)
      (fun b _ => by split_ifs <;> norm_num) hmem)
    simp only [sub_self, zero_div, Int.cast_zero, add_zero]
    rw [if_pos (by simpa using pow_pos hr 2)]

/-- The spot convolved with itself. -/
noncomputable def spotConv (S : ℕ) (f : ℤ → ℤ → ℝ) (z w : ℤ) : ℝ := ∑ s ∈ Finset.Icc (-(S : ℤ)) S, ∑ t ∈ Finset.Icc (-(S : ℤ)) S, f s t * f (z - s) (w - t)

theorem sum_Icc_neg (S : ℕ) (g : ℤ → ℝ) : ∑ s ∈ Finset.Icc (-(S : ℤ)) S, g (-s) = ∑ s ∈ Finset.Icc (-(S : ℤ)) S, g s := by
  refine Finset.sum_nbij' (fun s => -s) (fun s => -s) ?_ ?_ ?_ ?_ ?_
  · intro s hs; rw [Finset.mem_Icc] at hs ⊢; omega
  · intro s hs; rw [Finset.mem_Icc] at hs ⊢; omega
  · intro s _; ring
  · intro s _; ring
  · intro s _; rfl

theorem spot_conv {S : ℕ} {f : ℤ → ℤ → ℝ} (hf : Spot S f) : Spot (2 * S) (spotConv S f) := by
  constructor
  · exact fun z w => Finset.sum_nonneg fun s _ => Finset.sum_nonneg fun t _ => mul_nonneg (hf.nonneg _ _) (hf.nonneg _ _)
  · intro z w
    unfold spotConv
    rw [← sum_Icc_neg]
    refine Finset.sum_congr rfl fun s _ => ?_
    rw [← sum_Icc_neg]
    refine Finset.sum_congr rfl fun t _ => ?_
    rw [hf.symm, ← hf.symm (z - s) (w - t)]
    congr 2 <;> ring
  · intro z w hne
    obtain ⟨s, hs, h1⟩ := Finset.exists_ne_zero_of_sum_ne_zero hne
    obtain ⟨t, ht, h2⟩ := Finset.exists_ne_zero_of_sum_ne_zero h1
    have h3 := hf.supp _ _ (right_ne_zero_of_mul h2)
    rw [Finset.mem_Icc] at hs ht
    have a1 := abs_le.1 h3.1
    have a2 := abs_le.1 h3.2
    push_cast
    exact ⟨abs_le.2 ⟨by linarith, by linarith⟩, abs_le.2 ⟨by linarith, by linarith⟩⟩
  · have hmem : (0 : ℤ) ∈ Finset.Icc (-(S : ℤ)) S := Finset.mem_Icc.2 ⟨by simp, by simp⟩
    refine lt_of_lt_of_le (mul_pos hf.pos hf.pos) (le_trans ?_ (Finset.single_le_sum (f := fun s => ∑ t ∈ Finset.Icc (-(S : ℤ)) S, f s t * f (0 - s) (0 - t))
      (fun s _ => Finset.sum_nonneg fun t _ => mul_nonneg (hf.nonneg _ _) (hf.nonneg _ _)) hmem))
    exact Finset.single_le_sum (f := fun t => f 0 t * f (0 - 0) (0 - t)) (fun t _ => mul_nonneg (hf.nonneg _ _) (hf.nonneg _ _)) hmem

theorem reflect_off (m S : ℕ) (hm : 2 * S + 1 ≤ m / 2) (i a : ℕ) (hi : i < m) (ha : |(a : ℤ) - (m / 2 : ℕ)| ≤ S) :
    ((reflectIdx m ((i : ℤ) - a + (m / 2 : ℕ)) : ℕ) : ℤ) = (i : ℤ) - a + (m / 2 : ℕ) ∨
      (¬ |((reflectIdx m ((i : ℤ) - a + (m / 2 : ℕ)) : ℕ) : ℤ) - (m / 2 : ℕ)| ≤ S ∧ ¬ |(i : ℤ) - a| ≤ S) := by
  obtain ⟨c, hc⟩ : ∃ c, c = m / 2 := ⟨_, rfl⟩
  rw [← hc] at hm ha ⊢
  have hcm : m = 2 * c ∨ m = 2 * c + 1 := by omega
  rw [abs_le] at ha ⊢
  rw [abs_le]
  set k : ℤ := (i : ℤ) - a + (c : ℕ) with hk
  unfold reflectIdx
  rcases lt_or_ge k 0 with h0 | h0
  · right
    have e : k % (2 * m : ℤ) = k + 2 * m := by
      rw [← Int.add_emod_right]
      exact Int.emod_eq_of_lt (by omega) (by omega)
    simp only [e]
    split_ifs <;> omega
  · have e : k % (2 * m : ℤ) = k := Int.emod_eq_of_lt h0 (by omega)
    simp only [e]
    split_ifs
    · left; omega
    · right; omega

theorem reflectIdx_lt (m : ℕ) (hm : 0 < m) (k : ℤ) : reflectIdx m k < m := by
  unfold reflectIdx
  have h1 := Int.emod_nonneg k (by omega : (2 * m : ℤ) ≠ 0)
  have h2 := Int.emod_lt_of_pos k (by omega : (0 : ℤ) < 2 * m)
  simp only
  split_ifs <;> omega

/-- The sum over the pixels of a line, of a function that vanishes far from the middle. -/
theorem sum_range_middle (m S : ℕ) (hm : S + 1 ≤ m / 2) (g : ℤ → ℝ) (hg : ∀ s, g s ≠ 0 → |s| ≤ S) :
    ∑ a ∈ Finset.range m, g ((a : ℤ) - (m / 2 : ℕ)) = ∑ s ∈ Finset.Icc (-(S : ℤ)) S, g s := by
  symm
  refine Finset.sum_of_injOn (fun s => (s + (m / 2 : ℕ)).toNat) ?_ ?_ ?_ ?_
  · intro s hs t ht hst
    simp only [Finset.coe_Icc, Set.mem_Icc] at hs ht hst
    omega
  · intro s hs
    simp only [Finset.coe_Icc, Set.mem_Icc] at hs
    simp only [Finset.coe_range, Set.mem_Iio]
    omega
  · intro a ha hn
    by_contra hne
    have h1 := abs_le.1 (hg _ hne)
    apply hn
    simp only [Finset.coe_Icc, Set.mem_image, Set.mem_Icc]
    exact ⟨(a : ℤ) - (m / 2 : ℕ), ⟨h1.1, h1.2⟩, by omega⟩
  · intro s hs
    rw [Finset.mem_Icc] at hs
    congr 1
    omega

theorem markerDisk_eq (m n h R : ℕ) [NeZero m] [NeZero n] (radius : ℝ) (hr : 0 < radius) (hrR : radius ≤ R) (hm : 2 * R + 1 ≤ m / 2) (hn : 2 * R + 1 ≤ n / 2) (conv : Bool)
    (i : ZMod m) (j : ZMod n) : markerDisk m n radius (2 * h + 1) conv i j =
      (if conv then spotConv R (diskShare radius h) else diskShare radius h) ((i.val : ℤ) - (m / 2 : ℕ)) ((j.val : ℤ) - (n / 2 : ℕ)) := by
  have hi : i.val < m := ZMod.val_lt i
  have hj : j.val < n := ZMod.val_lt j
  unfold markerDisk
  cases conv with
  | false =>
    simp only [Bool.false_eq_true, if_false]
    exact diskProbe_eq m n h R radius hr hrR (by omega) (by omega) _ _ hi hj
  | true =>
    simp only [if_true]
    have hS := spot_share radius h R hr hrR
    have step : ∀ a ∈ Finset.range m, ∀ b ∈ Finset.range n, diskProbe m n radius (2 * h + 1) a b *
        diskProbe m n radius (2 * h + 1) (reflectIdx m ((i.val : ℤ) - a + (m / 2 : ℕ))) (reflectIdx n ((j.val : ℤ) - b + (n / 2 : ℕ))) =
        diskShare radius h ((a : ℤ) - (m / 2 : ℕ)) ((b : ℤ) - (n / 2 : ℕ)) *
          diskShare radius h (((i.val : ℤ) - (m / 2 : ℕ)) - ((a : ℤ) - (m / 2 : ℕ))) (((j.val : ℤ) - (n / 2 : ℕ)) - ((b : ℤ) - (n / 2 : ℕ))) := by
      intro a ha b hb
      rw [diskProbe_eq m n h R radius hr hrR (by omega) (by omega) a b (Finset.mem_range.1 ha) (Finset.mem_range.1 hb),
        diskProbe_eq m n h R radius hr hrR (by omega) (by omega) _ _ (reflectIdx_lt m (NeZero.pos m) _) (reflectIdx_lt n (NeZero.pos n) _)]
      by_cases h0 : diskShare radius h ((a : ℤ) - (m / 2 : ℕ)) ((b : ℤ) - (n / 2 : ℕ)) = 0
      · rw [h0, zero_mul, zero_mul]
      · obtain ⟨h1, h2⟩ := hS.supp _ _ h0
        congr 1
        rw [sub_sub_sub_cancel_right, sub_sub_sub_cancel_right]
        have z : ∀ z w z' w' : ℤ, ¬ (|z| ≤ (R : ℤ) ∧ |w| ≤ (R : ℤ)) → ¬ (|z'| ≤ (R : ℤ) ∧ |w'| ≤ (R : ℤ)) → diskShare radius h z w = diskShare radius h z' w' := by
          intro z w z' w' k1 k2
          rw [not_imp_comm.1 (hS.supp z w) k1, not_imp_comm.1 (hS.supp z' w') k2]
        rcases reflect_off m R hm i.val a hi h1 with e1 | ⟨e1, e1'⟩
        · rcases reflect_off n R hn j.val b hj h2 with e2 | ⟨e2, e2'⟩
          · rw [e1, e2]
            congr 1 <;> ring
          · exact z _ _ _ _ (fun k => e2 k.2) (fun k => e2' k.2)
        · exact z _ _ _ _ (fun k => e1 k.1) (fun k => e1' k.1)
    rw [Finset.sum_congr rfl fun a ha => Finset.sum_congr rfl fun b hb => step a ha b hb]
    unfold spotConv
    rw [← sum_range_middle m R (by omega) (fun s => ∑ t ∈ Finset.Icc (-(R : ℤ)) R, diskShare radius h s t *
      diskShare radius h (((i.val : ℤ) - (m / 2 : ℕ)) - s) (((j.val : ℤ) - (n / 2 : ℕ)) - t))]
    · refine Finset.sum_congr rfl fun a _ => ?_
      exact sum_range_middle n R (by omega) (fun t => diskShare radius h ((a : ℤ) - (m / 2 : ℕ)) t *
        diskShare radius h (((i.val : ℤ) - (m / 2 : ℕ)) - ((a : ℤ) - (m / 2 : ℕ))) (((j.val : ℤ) - (n / 2 : ℕ)) - t))
        (fun t ht => (hS.supp _ _ (left_ne_zero_of_mul ht)).2)
    · intro s hs
      obtain ⟨t, -, ht⟩ := Finset.exists_ne_zero_of_sum_ne_zero hs
      exact (hS.supp _ _ (left_ne_zero_of_mul ht)).1

theorem spot_aperiodic {m n S : ℕ} [NeZero m] [NeZero n] {f : ℤ → ℤ → ℝ} (hf : Spot S f) (hm : 2 * S + 1 ≤ m / 2) (hn : 2 * S + 1 ≤ n / 2) (marker : ZMod m → ZMod n → ℝ)
    (hmk : ∀ i j, marker i j = f ((i.val : ℤ) - (m / 2 : ℕ)) ((j.val : ℤ) - (n / 2 : ℕ))) : Aperiodic marker := by
  intro a b hab
  have hnn : ∀ i j, 0 ≤ marker i j := fun i j => by rw [hmk]; exact hf.nonneg _ _
  have hc : 0 < marker ((m / 2 : ℕ) : ZMod m) ((n / 2 : ℕ) : ZMod n) := by
    rw [hmk, ZMod.val_natCast_of_lt (by have := NeZero.pos m; omega), ZMod.val_natCast_of_lt (by have := NeZero.pos n; omega), sub_self, sub_self]
    exact hf.pos
  constructor
  · refine row_aperiodic (fun i => ∑ j, marker i j) (m / 2 - S) (2 * S + 1) (by omega) ?_ ⟨((m / 2 : ℕ) : ZMod m), ?_⟩ a ?_
    · intro i hi
      obtain ⟨j, -, hj⟩ := Finset.exists_ne_zero_of_sum_ne_zero hi
      rw [hmk] at hj
      have := abs_le.1 (hf.supp _ _ hj).1
      omega
    · exact ne_of_gt (lt_of_lt_of_le hc (Finset.single_le_sum (f := fun j => marker ((m / 2 : ℕ) : ZMod m) j) (fun j _ => hnn _ j) (Finset.mem_univ _)))
    · intro i
      show ∑ j, marker (i + a) j = ∑ j, marker i j
      rw [← Equiv.sum_comp (Equiv.addRight b)]
      exact Finset.sum_congr rfl fun j _ => hab i j
  · refine row_aperiodic (fun j => ∑ i, marker i j) (n / 2 - S) (2 * S + 1) (by omega) ?_ ⟨((n / 2 : ℕ) : ZMod n), ?_⟩ b ?_
    · intro j hj
      obtain ⟨i, -, hi⟩ := Finset.exists_ne_zero_of_sum_ne_zero hj
      rw [hmk] at hi
      have := abs_le.1 (hf.supp _ _ hi).2
      omega
    · exact ne_of_gt (lt_of_lt_of_le hc (Finset.single_le_sum (f := fun i => marker i ((n / 2 : ℕ) : ZMod n)) (fun i _ => hnn i _) (Finset.mem_univ _)))
    · intro j
      show ∑ i, marker i (j + b) = ∑ i, marker i j
      rw [← Equiv.sum_comp (Equiv.addRight a)]
      exact Finset.sum_congr rfl fun i _ => hab i j

/-- The residue of an integer, from its offset to the middle. -/
theorem val_middle {m S : ℕ} [NeZero m] (hm : S + 1 ≤ m / 2) (z : ℤ) (hz : |z| ≤ S) : (((((m / 2 : ℕ) : ℤ) + z : ℤ) : ZMod m).val : ℤ) - (m / 2 : ℕ) = z := by
  rw [ZMod.val_intCast, Int.emod_eq_of_lt]
  · ring
  · have := (abs_le.1 hz).1; omega
  · have := (abs_le.1 hz).2; omega

/-- Around its middle pixel, the marker is `f`, and nothing elsewhere. -/
theorem spot_values {m n S : ℕ} [NeZero m] [NeZero n] {f : ℤ → ℤ → ℝ} (hf : Spot S f) (hm : 2 * S + 1 ≤ m / 2) (hn : 2 * S + 1 ≤ n / 2) (marker : ZMod m → ZMod n → ℝ)
    (hmk : ∀ i j, marker i j = f ((i.val : ℤ) - (m / 2 : ℕ)) ((j.val : ℤ) - (n / 2 : ℕ))) :
    (∀ z w : ℤ, |z| ≤ S → |w| ≤ S → marker (((m / 2 : ℕ) : ℤ) + z : ℤ) (((n / 2 : ℕ) : ℤ) + w : ℤ) = f z w) ∧
    ∀ i j, marker i j ≠ 0 → ∃ z w : ℤ, |z| ≤ S ∧ |w| ≤ S ∧ i = (((m / 2 : ℕ) : ℤ) + z : ℤ) ∧ j = (((n / 2 : ℕ) : ℤ) + w : ℤ) := by
  constructor
  · intro z w hz hw
    rw [hmk, val_middle (S := S) (by omega) z hz, val_middle (S := S) (by omega) w hw]
  · intro i j hij
    rw [hmk] at hij
    obtain ⟨h1, h2⟩ := hf.supp _ _ hij
    refine ⟨_, _, h1, h2, ?_, ?_⟩
    · rw [add_sub_cancel, Int.cast_natCast, ZMod.natCast_zmod_val]
    · rw [add_sub_cancel, Int.cast_natCast, ZMod.natCast_zmod_val]

/-- The image shows a disk at pixel `(pv, pu)` (coordinates are taken around the borders): the profile `f` of `create_marker_disk` around it, and nothing
beyond `S` pixels. -/
def ShowsDisk {m n : ℕ} (img : ZMod m → ZMod n → ℝ) (S : ℕ) (f : ℤ → ℤ → ℝ) (pv pu : ℤ) : Prop :=
  (∀ z w : ℤ, |z| ≤ S → |w| ≤ S → img ((pv + z : ℤ) : ZMod m) ((pu + w : ℤ) : ZMod n) = f z w) ∧
  ∀ i j, img i j ≠ 0 → ∃ z w : ℤ, |z| ≤ S ∧ |w| ≤ S ∧ i = ((pv + z : ℤ) : ZMod m) ∧ j = ((pu + w : ℤ) : ZMod n)

/-- The profile of a disk: the share of each pixel that is within the radius (by `(2 h + 1)²` sub-samples), convolved with itself with `conv`. It is within
`R` or `2 R` pixels of the centre, for a radius of at most `R`. -/
noncomputable def diskProfile (radius : ℝ) (h R : ℕ) (conv : Bool) : ℤ → ℤ → ℝ := if conv then spotConv R (diskShare radius h) else diskShare radius h

theorem spot_profile (radius : ℝ) (h R : ℕ) (conv : Bool) (hr : 0 < radius) (hrR : radius ≤ R) : Spot (2 * R) (diskProfile radius h R conv) := by
  have hS := spot_share radius h R hr hrR
  cases conv with
  | true => simpa [diskProfile] using spot_conv hS
  | false =>
    have : diskProfile radius h R false = diskShare radius h := by simp [diskProfile]
    rw [this]
    refine ⟨hS.nonneg, hS.symm, fun z w hz => ?_, hS.pos⟩
    have := hS.supp z w hz
    push_cast
    have h0 : (0 : ℤ) ≤ R := by positivity
    exact ⟨by linarith [this.1], by linarith [this.2]⟩

/-- **C217.** The disk created as a marker is at the pixel of index half the size of the image (rounded down), with the profile above, for an odd
super-sampling and images large enough. It is the same on opposite sides of this pixel. -/
theorem C217_disk (m n h R : ℕ) [NeZero m] [NeZero n] (radius : ℝ) (hr : 0 < radius) (hrR : radius ≤ R) (hm : 4 * R + 1 ≤ m / 2) (hn : 4 * R + 1 ≤ n / 2) (conv : Bool) :
    ShowsDisk (markerDisk m n radius (2 * h + 1) conv) (2 * R) (diskProfile radius h R conv) (m / 2 : ℕ) (n / 2 : ℕ) ∧
    (∀ z w, diskProfile radius h R conv (-z) (-w) = diskProfile radius h R conv z w) ∧ 0 < diskProfile radius h R conv 0 0 := by
  have hS := spot_profile radius h R conv hr hrR
  refine ⟨spot_values hS (by omega) (by omega) _ fun i j => ?_, hS.symm, hS.pos⟩
  rw [markerDisk_eq m n h R radius hr hrR (by omega) (by omega)]
  rfl

theorem track_disk {m n : ℕ} [NeZero m] [NeZero n] (h R : ℕ) (radius : ℝ) (hr : 0 < radius) (hrR : radius ≤ R) (hm : 4 * R + 1 ≤ m / 2) (hn : 4 * R + 1 ≤ n / 2)
    (hne : Even n) (conv : Bool) (img : ZMod m → ZMod n → ℝ) (pv pu : ℤ) (hpv : 0 ≤ pv ∧ pv < 2 * (m / 2 : ℕ)) (hpu : 0 ≤ pu ∧ pu < n)
    (himg : ShowsDisk img (2 * R) (diskProfile radius h R conv) pv pu) :
    trackMarker img (markerDisk m n radius (2 * h + 1) conv) = some (((pv - (m / 2 : ℕ) : ℤ) : ℝ) + (m : ℝ) / 2, (pu : ℝ)) := by
  have hS := spot_profile radius h R conv hr hrR
  have hmk : ∀ i j, markerDisk m n radius (2 * h + 1) conv i j = diskProfile radius h R conv ((i.val : ℤ) - (m / 2 : ℕ)) ((j.val : ℤ) - (n / 2 : ℕ)) := fun i j => by
    rw [markerDisk_eq m n h R radius hr hrR (by omega) (by omega)]; rfl
  obtain ⟨hv1, hv2⟩ := spot_values hS (by omega) (by omega) _ hmk
  have hsh : IsShifted img (markerDisk m n radius (2 * h + 1) conv) (pv - (m / 2 : ℕ)) (pu - (n / 2 : ℕ)) := by
    intro i j
    by_cases h0 : img i j = 0
    · by_contra hne'
      obtain ⟨z, w, hz, hw, e1, e2⟩ := hv2 _ _ (fun k => hne' (by rw [h0, k]))
      have i1 : i = ((pv + z : ℤ) : ZMod m) := by
        rw [sub_eq_iff_eq_add] at e1
        rw [e1]; push_cast; ring
      have j1 : j = ((pu + w : ℤ) : ZMod n) := by
        rw [sub_eq_iff_eq_add] at e2
        rw [e2]; push_cast; ring
      apply hne'
      rw [e1, e2, hv1 z w hz hw, i1, j1, himg.1 z w hz hw]
    · obtain ⟨z, w, hz, hw, e1, e2⟩ := himg.2 i j h0
      have i1 : i - ((pv - (m / 2 : ℕ) : ℤ) : ZMod m) = (((m / 2 : ℕ) : ℤ) + z : ℤ) := by
        rw [e1]; push_cast; ring
      have j1 : j - ((pu - (n / 2 : ℕ) : ℤ) : ZMod n) = (((n / 2 : ℕ) : ℤ) + w : ℤ) := by
        rw [e2]; push_cast; ring
      rw [i1, j1, hv1 z w hz hw, e1, e2, himg.1 z w hz hw]
  obtain ⟨k, hk⟩ := hne
  rw [C217_moves_partial (by omega) (by omega) ⟨k, hk⟩ img _ (spot_aperiodic hS (by omega) (by omega) _ hmk) _ _ hsh (by omega) (by omega)]
  have hk2 : n / 2 = k := by omega
  rw [hk2, hk]
  push_cast
  congr 2
  ring

/-- **C217 (partial).** In an image that shows the disk at a pixel, this pixel is the position that is found, for images with even numbers of rows and of
columns. -/
theorem C217_position_partial {m n : ℕ} [NeZero m] [NeZero n] (h R : ℕ) (radius : ℝ) (hr : 0 < radius) (hrR : radius ≤ R) (hm : 4 * R + 1 ≤ m / 2) (hn : 4 * R + 1 ≤ n / 2)
    (hme : Even m) (hne : Even n) (conv : Bool) (img : ZMod m → ZMod n → ℝ) (pv pu : ℤ) (hpv : 0 ≤ pv ∧ pv < m) (hpu : 0 ≤ pu ∧ pu < n)
    (himg : ShowsDisk img (2 * R) (diskProfile radius h R conv) pv pu) :
    trackMarker img (markerDisk m n radius (2 * h + 1) conv) = some ((pv : ℝ), (pu : ℝ)) := by
  obtain ⟨k, hk⟩ := hme
  have hk2 : m / 2 = k := by omega
  rw [track_disk h R radius hr hrR hm hn hne conv img pv pu (by omega) hpu himg, hk2, hk]
  push_cast
  congr 2
  ring

/-- The hypotheses of `C217_position_partial` are met: the marker itself, of radius 1 in an image of 10 by 12 pixels, at pixel (5, 6). -/
example : trackMarker (markerDisk 10 12 1 (2 * 2 + 1) true) (markerDisk 10 12 1 (2 * 2 + 1) true) = some (((5 : ℤ) : ℝ), ((6 : ℤ) : ℝ)) :=
  C217_position_partial 2 1 1 one_pos (by norm_num) (by norm_num) (by norm_num) ⟨5, rfl⟩ ⟨6, rfl⟩ true _ 5 6 (by norm_num) (by norm_num)
    (C217_disk 10 12 2 1 1 one_pos (by norm_num) (by norm_num) (by norm_num) true).1

/-- **C217 (violated).** The pixel of the disk is found whatever the numbers of rows: for an odd number it is missed by half a pixel, even in the image of
the marker itself. -/
theorem C217_odd_rows_violated : ¬ ∀ (m n h R : ℕ) (_ : NeZero m) (_ : NeZero n) (radius : ℝ) (conv : Bool) (img : ZMod m → ZMod n → ℝ) (pv pu : ℤ),
    0 < radius → radius ≤ R → 4 * R + 1 ≤ m / 2 → 4 * R + 1 ≤ n / 2 → Even n → (0 ≤ pv ∧ pv < m) → (0 ≤ pu ∧ pu < n) →
    ShowsDisk img (2 * R) (diskProfile radius h R conv) pv pu → trackMarker img (markerDisk m n radius (2 * h + 1) conv) = some ((pv : ℝ), (pu : ℝ)) := by
  intro hall
  have hd := (C217_disk 11 10 2 1 1 one_pos (by norm_num) (by norm_num) (by norm_num) true).1
  have h1 := hall 11 10 2 1 inferInstance inferInstance 1 true (markerDisk 11 10 1 (2 * 2 + 1) true) 5 5 one_pos (by norm_num) (by norm_num) (by norm_num) ⟨5, rfl⟩
    (by norm_num) (by norm_num) hd
  rw [track_disk 2 1 1 one_pos (by norm_num) (by norm_num) (by norm_num) ⟨5, rfl⟩ true _ 5 5 (by norm_num) (by norm_num) hd] at h1
  have := congrArg (fun t : ℝ × ℝ => t.1) (Option.some.inj h1)
  norm_num at this

/-! ## C218 -/

/-- **C218.** Images of different shapes are refused. -/
theorem C218_shapes (shape1 shape2 : List ℕ) (radius : ℕ) [NeZero (radius - 1)] (eps : ℝ) (polar1 polar2 : ℕ → ℕ → ℝ) (h : shape1 ≠ shape2) :
    fitRotationScale shape1 shape2 radius eps polar1 polar2 = none := by
  unfold fitRotationScale
  rw [if_pos h]

/-- The part of the polar spectra that is compared: half a turn, by degrees, and the radii from the second sample on. -/
def halfPolar (radius : ℕ) (polar : ℕ → ℕ → ℝ) : ZMod 180 → ZMod (radius - 1) → ℝ := fun i j => polar i.val (j.val + 1)

/-- **C218 (partial).** If the polar spectrum of the second image is that of the first turned by `-t` degrees (which half a turn leaves as it is) and with the
logarithms of the radii lessened by `k` samples (around the ends), then the rotation is `t` degrees and the scale is the ratio of the radii of samples `k` apart:
for an odd number of samples along the radius. -/
theorem C218_rotation_scale_partial (shape : List ℕ) (radius : ℕ) [NeZero (radius - 1)] (hrad : 3 ≤ radius) (hodd : Odd radius) (eps : ℝ) (he : 0 < eps)
    (polar1 polar2 : ℕ → ℕ → ℝ) (hp : Aperiodic (halfPolar radius polar2)) (t k : ℤ) (h : IsShifted (halfPolar radius polar1) (halfPolar radius polar2) t k)
    (ht : -90 ≤ t ∧ t < 90) (hk : -(radius - 1 : ℤ) ≤ 2 * k ∧ 2 * k < radius - 1) :
    fitRotationScale shape shape radius eps polar1 polar2 = some ((t : ℝ), (radius : ℝ) ^ ((k : ℝ) / radius)) := by
  unfold fitRotationScale rotationScale
  rw [if_neg (by simp)]
  obtain ⟨q, hq⟩ := hodd
  have e := C213_image_shift_partial (m := 180) (n := radius - 1) (by norm_num) (by omega) true true (fun _ => ⟨q, by omega⟩) eps he
    (halfPolar radius polar1) (halfPolar radius polar2) hp t k h (by omega) (by omega) 2
  unfold halfPolar at e
  rw [e]
  simp only [Option.map_some]
  have hr : (0 : ℝ) < radius := by
    have : 0 < radius := by omega
    exact_mod_cast this
  rw [Real.rpow_def_of_pos hr]
  congr 2
  · norm_num
  · congr 1
    rw [div_div_eq_mul_div]
    ring

/-- Polar spectra of the examples: a point at angle 0 and at the sample `j0` of the radius. -/
private noncomputable def polarPoint (j0 : ℕ) (i j : ℕ) : ℝ := if i = 0 ∧ j = j0 then 1 else 0

private theorem polarPoint_half (radius : ℕ) [NeZero (radius - 1)] (j0 : ℕ) (hj : j0 < radius - 1) (i : ZMod 180) (j : ZMod (radius - 1)) :
    halfPolar radius (polarPoint (j0 + 1)) i j = if i = 0 ∧ j = ((j0 : ℕ) : ZMod (radius - 1)) then 1 else 0 := by
  unfold halfPolar polarPoint
  have e1 : (i.val = 0) = (i = 0) := by rw [ZMod.val_eq_zero]
  have e2 : (j.val + 1 = j0 + 1) = (j = ((j0 : ℕ) : ZMod (radius - 1))) := by
    rw [eq_iff_iff]
    constructor
    · intro h
      rw [← ZMod.natCast_zmod_val j]
      congr 1
      omega
    · intro h
      rw [h, ZMod.val_natCast_of_lt hj]
  simp only [e1, e2]

private theorem polarPoint_aperiodic (radius : ℕ) [NeZero (radius - 1)] (j0 : ℕ) (hj : j0 < radius - 1) : Aperiodic (halfPolar radius (polarPoint (j0 + 1))) := by
  intro a b hab
  have h0 := hab 0 ((j0 : ℕ) : ZMod (radius - 1))
  rw [polarPoint_half radius j0 hj, polarPoint_half radius j0 hj, if_pos (⟨rfl, rfl⟩ : (0 : ZMod 180) = 0 ∧ ((j0 : ℕ) : ZMod (radius - 1)) = ((j0 : ℕ) : ZMod (radius - 1)))] at h0
  by_contra hne
  rw [if_neg (by rintro ⟨h1, h2⟩; exact hne ⟨by simpa using h1, by simpa using h2⟩)] at h0
  norm_num at h0

/-- The hypotheses of `C218_rotation_scale_partial` are met: a move by one sample of five. -/
example : fitRotationScale [10, 10] [10, 10] 5 1 (polarPoint 2) (polarPoint 1) = some (((0 : ℤ) : ℝ), ((5 : ℕ) : ℝ) ^ (((1 : ℤ) : ℝ) / ((5 : ℕ) : ℝ))) :=
  C218_rotation_scale_partial [10, 10] 5 (by norm_num) ⟨2, rfl⟩ 1 one_pos _ _ (polarPoint_aperiodic 5 0 (by norm_num)) 0 1
    (by
      intro i j
      rw [polarPoint_half 5 1 (by norm_num), polarPoint_half 5 0 (by norm_num)]
      have : (j = ((1 : ℕ) : ZMod (5 - 1))) = (j - ((1 : ℤ) : ZMod (5 - 1)) = ((0 : ℕ) : ZMod (5 - 1))) := by
        rw [eq_iff_iff, sub_eq_iff_eq_add]
        simp
      simp only [this, Int.cast_zero, sub_zero]) (by norm_num) (by norm_num)

private theorem fft3_polar (x0 : ZMod 3) (k : Grid3 1 180 3) :
    fft3 (slice3 fun (i : ZMod 180) (j : ZMod 3) => if i = 0 ∧ j = x0 then (1 : ℝ) else 0) k = stdAddChar (-(k.2.2 * x0)) := by
  unfold fft3 slice3
  rw [Finset.sum_eq_single ((0, 0, x0) : Grid3 1 180 3)]
  · simp [chi3]
  · rintro ⟨i, j, l⟩ _ hi
    show (((if j = 0 ∧ l = x0 then (1 : ℝ) else 0) : ℝ) : ℂ) * _ = 0
    rw [if_neg]
    · simp
    · rintro ⟨h1, h2⟩
      apply hi
      rw [h1, h2, Subsingleton.elim i 0]
  · simp

private theorem polar_fit : fitShiftVUN true true 1 (halfPolar 4 (polarPoint 1)) (halfPolar 4 (polarPoint 2)) 2 = some (0, 1) := by
  have hd : halfPolar 4 (polarPoint 1) = fun (i : ZMod 180) (j : ZMod 3) => if i = 0 ∧ j = 0 then (1 : ℝ) else 0 := by
    funext i j
    rw [polarPoint_half 4 0 (by norm_num)]
    rfl
  have hp : halfPolar 4 (polarPoint 2) = fun (i : ZMod 180) (j : ZMod 3) => if i = 0 ∧ j = 1 then (1 : ℝ) else 0 := by
    funext i j
    rw [polarPoint_half 4 1 (by norm_num)]
    rfl
  rw [hd, hp]
  set D : ZMod 180 → ZMod 3 → ℝ := fun (i : ZMod 180) (j : ZMod 3) => if i = 0 ∧ j = 0 then (1 : ℝ) else 0 with hD
  set P : ZMod 180 → ZMod 3 → ℝ := fun (i : ZMod 180) (j : ZMod 3) => if i = 0 ∧ j = 1 then (1 : ℝ) else 0 with hP
  have hS : ∀ k : Grid3 1 180 3, xcSpectrum3 true 1 (slice3 D) (slice3 P) k = stdAddChar k.2.2 := by
    intro k
    unfold xcSpectrum3 normSpectrum
    rw [hD, hP, fft3_polar, fft3_polar, conj_char, mul_zero, neg_zero, AddChar.map_zero_eq_one, one_mul, neg_neg, mul_one]
    have : ‖(stdAddChar k.2.2 : ℂ)‖ = 1 := AddChar.norm_apply _ _
    rw [this]
    simp
  have hY : ∀ (b : ℕ) (l : ZMod 3), (∑ k : ZMod 1 × ZMod 180, xcSpectrum3 true 1 (slice3 D) (slice3 P) (k.1, k.2, l) *
      (stdAddChar (k.1 * ((0 : ℕ) : ZMod 1)) * stdAddChar (k.2 * (b : ZMod 180)))) / (((1 : ℕ) : ℂ) * ((180 : ℕ) : ℂ)) =
      if (b : ZMod 180) = 0 then stdAddChar l else 0 := by
    intro b l
    simp only [hS, Fintype.sum_prod_type]
    have e : ∑ x : ZMod 1, ∑ y : ZMod 180, (stdAddChar l : ℂ) * (stdAddChar (x * ((0 : ℕ) : ZMod 1)) * stdAddChar (y * (b : ZMod 180))) =
        stdAddChar l * ((∑ x : ZMod 1, stdAddChar (x * ((0 : ℕ) : ZMod 1))) * ∑ y : ZMod 180, stdAddChar (y * (b : ZMod 180))) := by
      rw [Finset.sum_mul_sum, Finset.mul_sum]
      refine Finset.sum_congr rfl fun x _ => ?_
      rw [Finset.mul_sum]
    rw [e, char_sum, char_sum]
    by_cases h2 : (b : ZMod 180) = 0 <;> simp [h2]
  have e1 : (stdAddChar (((1 : ℕ)) : ZMod 3) : ℂ).re = -1 / 2 := by
    have e := stdAddChar_coe (N := 3) (1 : ℤ)
    have e' : (stdAddChar (((1 : ℕ)) : ZMod 3) : ℂ) = exp (((2 * Real.pi / 3 : ℝ) : ℂ) * I) := by
      push_cast at e ⊢
      rw [e]; congr 1; ring
    rw [e', exp_ofReal_mul_I_re, show (2 * Real.pi / 3 : ℝ) = Real.pi - Real.pi / 3 by ring, Real.cos_pi_sub, Real.cos_pi_div_three]
    norm_num
  have e0 : (stdAddChar (((0 : ℕ)) : ZMod 3) : ℂ).re = 1 := by simp
  have hcc : ∀ b c : ℕ, xcVolume true true 1 (slice3 D) (slice3 P) 0 b c = if (b : ZMod 180) = 0 then (1 + (-1) ^ c * (-1 / 2)) / 2 else 0 := by
    intro b c
    unfold xcVolume
    simp only [if_true, hY]
    by_cases hb : (b : ZMod 180) = 0
    · simp only [if_pos hb]
      unfold irfftDefault
      rw [e0, show 3 / 2 = 1 from rfl, e1]
      norm_num
    · simp only [if_neg hb]
      unfold irfftDefault
      simp
  have c0 : ∀ c, xcVolume true true 1 (slice3 D) (slice3 P) 0 0 c = (1 + (-1) ^ c * (-1 / 2)) / 2 := fun c => by
    rw [hcc, if_pos (by simp)]
  have c1 : ∀ b, 0 < b → b < 180 → ∀ c, xcVolume true true 1 (slice3 D) (slice3 P) 0 b c = 0 := fun b hb hb' c => by
    rw [hcc, if_neg]
    intro h
    rw [ZMod.natCast_eq_zero_iff] at h
    exact absurd (Nat.le_of_dvd hb h) (by omega)
  have ham : argmin (fun i => -xcVolume true true 1 (slice3 D) (slice3 P) 0 (i / 2) (i % 2)) (180 * 2) = 1 := by
    refine argmax_unique (fun i => xcVolume true true 1 (slice3 D) (slice3 P) 0 (i / 2) (i % 2)) (180 * 2) 1 (by norm_num) ?_ ?_
    · intro i hi
      rcases Nat.lt_or_ge i 2 with h2 | h2
      · have : i = 0 ∨ i = 1 := by omega
        rcases this with rfl | rfl <;> norm_num [c0]
      · simp only [c1 (i / 2) (by omega) (by omega)]
        norm_num [c0]
    · intro i hi
      obtain rfl : i = 0 := by omega
      norm_num [c0]
  unfold fitShiftVUN
  have hw : xcWidth true (4 - 1) = 2 := rfl
  simp only [hw]
  rw [ham]
  have r1 : refineIf 2 (0 : ℝ) (3 / 4) 0 = some 0 := refineIf_symmetric _ _ _ _ rfl (by norm_num)
  have r2 : refineIf 2 (1 / 4 : ℝ) (3 / 4) (1 / 4) = some 0 := refineIf_symmetric _ _ _ _ rfl (by norm_num)
  norm_num [c0, c1, r1, r2, fftfreq]

/-- **C218 (violated).** The rotation and the scale are found whatever the number of samples along the radius: not for an even number. Here a scale below 1 is
taken for one above 1. -/
theorem C218_even_radius_violated : ¬ ∀ (shape : List ℕ) (radius : ℕ) (_ : NeZero (radius - 1)) (eps : ℝ) (polar1 polar2 : ℕ → ℕ → ℝ) (t k : ℤ), 3 ≤ radius → 0 < eps → eps ≤ 1 →
    Aperiodic (halfPolar radius polar2) → IsShifted (halfPolar radius polar1) (halfPolar radius polar2) t k → 2 * |t| < 180 → 2 * |k| < radius - 1 →
    fitRotationScale shape shape radius eps polar1 polar2 = some ((t : ℝ), (radius : ℝ) ^ ((k : ℝ) / radius)) := by
  intro hall
  have h1 := hall [8, 8] 4 inferInstance 1 (polarPoint 1) (polarPoint 2) 0 (-1) (by norm_num) one_pos le_rfl (polarPoint_aperiodic 4 1 (by norm_num))
    (by
      intro i j
      rw [polarPoint_half 4 0 (by norm_num), polarPoint_half 4 1 (by norm_num)]
      have : (j = ((0 : ℕ) : ZMod (4 - 1))) = (j - ((-1 : ℤ) : ZMod (4 - 1)) = ((1 : ℕ) : ZMod (4 - 1))) := by
        rw [eq_iff_iff, sub_eq_iff_eq_add]
        simp
      simp only [this, Int.cast_zero, sub_zero]) (by norm_num) (by norm_num)
  unfold fitRotationScale rotationScale at h1
  rw [if_neg (by simp)] at h1
  have e := polar_fit
  unfold halfPolar at e
  rw [e] at h1
  have h2 := congrArg (fun t : ℝ × ℝ => t.2) (Option.some.inj h1)
  simp only at h2
  have hl : 0 < Real.log ((4 : ℕ) : ℝ) := Real.log_pos (by norm_num)
  have h3 : 1 < Real.exp (1 / (((4 : ℕ) : ℝ) / Real.log ((4 : ℕ) : ℝ))) := by
    rw [Real.one_lt_exp_iff]
    positivity
  have h4 : (((4 : ℕ) : ℝ)) ^ (((-1 : ℤ) : ℝ) / ((4 : ℕ) : ℝ)) < 1 := Real.rpow_lt_one_of_one_lt_of_neg (by norm_num) (by norm_num)
  linarith

end Verif
