import Verif.Model.ParamTuning
import Verif.Props.SolversAccounting

/-!
# C41–C44, C58: cross-validation masks, parallel evaluation, cross-validation losses, rounding
-/

namespace Verif
open Finset

/-! ## C58 -/

/-- `roundup_to_pow2` is a multiple of `2^p`, not below its argument, and the smallest such. -/
theorem C58_roundup (x : ℝ) (p : ℕ) :
    (2 ^ p : ℤ) ∣ roundupToPow2 x p ∧ x ≤ roundupToPow2 x p ∧ ∀ m : ℤ, (2 ^ p : ℤ) ∣ m → x ≤ m → roundupToPow2 x p ≤ m := by
  have hp : (0 : ℝ) < 2 ^ p := by positivity
  refine ⟨Dvd.intro_left _ rfl, ?_, ?_⟩
  · have := Int.le_ceil (x / 2 ^ p)
    rw [div_le_iff₀ hp] at this
    unfold roundupToPow2
    push_cast
    exact this
  · rintro m ⟨k, rfl⟩ hx
    unfold roundupToPow2
    rw [mul_comm]
    apply mul_le_mul_of_nonneg_left _ (by positivity)
    rw [Int.ceil_le, div_le_iff₀ hp]
    push_cast at hx
    linarith

example : roundupToPow2 13 2 = 16 := by
  have h := C58_roundup 13 2
  have h1 : (13 : ℤ) ≤ roundupToPow2 13 2 := by exact_mod_cast h.2.1
  have h2 := h.2.2 16 (by norm_num) (by norm_num)
  have h3 := h.1
  omega

/-! ## C42 -/

/-- A random test mask selects exactly `ceil(N * fraction)` pixels, all its values are 0 or 1, for every draw. -/
theorem C42_test_mask_size (N : ℕ) (f : ℝ) (h0 : 0 ≤ f) (h1 : f ≤ 1) (perm : List ℕ) (hp : perm.Perm (List.range N)) :
    (#{i ∈ range N | randomTestMask N f perm i = 1} : ℤ) = ⌈(N : ℝ) * f⌉ ∧
    ∀ i, randomTestMask N f perm i = 0 ∨ randomTestMask N f perm i = 1 := by
  have hN : (0 : ℝ) ≤ N := Nat.cast_nonneg N
  constructor
  · have hnd : perm.Nodup := hp.nodup_iff.2 List.nodup_range
    set m := ⌈(N : ℝ) * f⌉.toNat with hm
    have hc0 : 0 ≤ ⌈(N : ℝ) * f⌉ := Int.ceil_nonneg (by positivity)
    have hcN : ⌈(N : ℝ) * f⌉ ≤ N := by
      rw [Int.ceil_le]; push_cast; nlinarith
    have hset : {i ∈ range N | randomTestMask N f perm i = 1} = (perm.take m).toFinset := by
      ext i
      unfold randomTestMask
      rw [mem_filter, List.mem_toFinset, ← hm]
      constructor
      · rintro ⟨-, h⟩
        by_contra hc
        rw [if_neg hc] at h
        exact zero_ne_one h
      · intro h
        exact ⟨by simpa using hp.subset (List.mem_of_mem_take h), if_pos h⟩
    rw [hset, List.toFinset_card_of_nodup (hnd.sublist (List.take_sublist _ _)), List.length_take, hp.length_eq,
      List.length_range]
    omega
  · intro i
    unfold randomTestMask
    split_ifs
    · exact Or.inr rfl
    · exact Or.inl rfl

example : (#{i ∈ range 7 | randomTestMask 7 (1 / 4) [3, 5, 0, 1, 6, 2, 4] i = 1} : ℤ) = ⌈((7 : ℕ) : ℝ) * (1 / 4)⌉ :=
  (C42_test_mask_size 7 (1 / 4) (by norm_num) (by norm_num) _ (by decide)).1

/-! ## C41 -/

private theorem mem_stride {l : List ℕ} {i k : ℕ} (hk : 1 ≤ k) (hi : i < k) (x : ℕ) :
    x ∈ strideFrom l i k ↔ ∃ j, j % k = i ∧ l[j]? = some x := by
  unfold strideFrom
  simp only [List.mem_map, List.mem_range]
  constructor
  · rintro ⟨m, hm, rfl⟩
    have hlt : i + m * k < l.length := by
      rw [Nat.lt_div_iff_mul_lt hk] at hm
      by_contra hc
      have : m * k = k * m := Nat.mul_comm _ _
      omega
    refine ⟨i + m * k, by rw [Nat.add_mul_mod_self_right, Nat.mod_eq_of_lt hi], ?_⟩
    rw [List.getElem?_eq_getElem hlt, List.getD_eq_getElem?_getD, List.getElem?_eq_getElem hlt]
    rfl
  · rintro ⟨j, hj, hx⟩
    have hlt : j < l.length := by
      by_contra hc
      rw [List.getElem?_eq_none (by omega)] at hx
      cases hx
    have hd := Nat.div_add_mod j k
    refine ⟨j / k, ?_, ?_⟩
    · rw [Nat.lt_div_iff_mul_lt hk]
      have : j / k * k = k * (j / k) := Nat.mul_comm _ _
      omega
    · have : i + j / k * k = j := by rw [Nat.mul_comm]; omega
      rw [this, List.getD_eq_getElem?_getD, hx]
      rfl

/-- Every pixel is in exactly one fold: the masks are 0/1-valued and add up to 1 at every pixel (so they are disjoint and
cover the image), for every number of folds and every permutation. -/
theorem C41_partition (k : ℕ) (hk : 1 ≤ k) (N : ℕ) (perm : List ℕ) (hp : perm.Perm (List.range N)) :
    (kFoldMasks k perm).length = k ∧
    (∀ pixel < N, ((kFoldMasks k perm).map fun m => m pixel).sum = 1) ∧
    (∀ m ∈ kFoldMasks k perm, ∀ pixel, m pixel = 0 ∨ m pixel = 1) ∧
    ∀ pixel < N, ∃! i : ℕ, ∃ m : ℕ → ℝ, (kFoldMasks k perm)[i]? = some m ∧ m pixel = 1 := by
  have hnd : perm.Nodup := hp.nodup_iff.2 List.nodup_range
  have hpos : ∀ pixel < N, ∃ j : ℕ, perm[j]? = some pixel := by
    intro pixel hpix
    have : pixel ∈ perm := hp.symm.subset (by simpa using hpix)
    obtain ⟨j, hj⟩ := List.getElem?_of_mem this
    exact ⟨j, hj⟩
  have hmem : ∀ i < k, ∀ pixel (j : ℕ), perm[j]? = some pixel → (pixel ∈ strideFrom perm i k ↔ i = j % k) := by
    intro i hi pixel j hj
    rw [mem_stride hk hi]
    constructor
    · rintro ⟨j', h1, h2⟩
      have hj'l : j' < perm.length := by
        by_contra hc
        rw [List.getElem?_eq_none (by omega)] at h2; cases h2
      have : j' = j := (List.getElem?_inj hj'l hnd).1 (h2.trans hj.symm)
      rw [← this, h1]
    · rintro rfl
      exact ⟨j, rfl, hj⟩
  refine ⟨by simp [kFoldMasks], ?_, ?_, ?_⟩
  · intro pixel hpix
    obtain ⟨j, hj⟩ := hpos pixel hpix
    unfold kFoldMasks
    rw [List.map_map]
    have h1 : ((List.range k).map ((fun m : ℕ → ℝ => m pixel) ∘ fun i => fun pixel => if pixel ∈ strideFrom perm i k then (1 : ℝ) else 0)) =
        (List.range k).map fun i => if i = j % k then (1 : ℝ) else 0 := by
      apply List.map_congr_left
      intro i hi
      rw [List.mem_range] at hi
      simp only [Function.comp, hmem i hi pixel j hj]
    rw [h1]
    have h2 : ((List.range k).map fun i => if i = j % k then (1 : ℝ) else 0).sum = ∑ i ∈ range k, if i = j % k then (1 : ℝ) else 0 := rfl
    rw [h2, sum_ite_eq', if_pos (by rw [mem_range]; exact Nat.mod_lt _ hk)]
  · intro m hm pixel
    unfold kFoldMasks at hm
    rw [List.mem_map] at hm
    obtain ⟨i, -, rfl⟩ := hm
    dsimp only
    split_ifs
    · exact Or.inr rfl
    · exact Or.inl rfl
  · intro pixel hpix
    obtain ⟨j, hj⟩ := hpos pixel hpix
    have hget : ∀ (i : ℕ) (m : ℕ → ℝ), (kFoldMasks k perm)[i]? = some m → i < k ∧ m = fun pixel => if pixel ∈ strideFrom perm i k then (1 : ℝ) else 0 := by
      intro i m h
      unfold kFoldMasks at h
      rw [List.getElem?_map, Option.map_eq_some_iff] at h
      obtain ⟨i', h1, h2⟩ := h
      have hi : i < k := by
        by_contra hc
        rw [List.getElem?_eq_none (by simp; omega)] at h1; cases h1
      rw [List.getElem?_range hi] at h1
      cases h1
      exact ⟨hi, h2.symm⟩
    refine ⟨j % k, ⟨fun pixel => if pixel ∈ strideFrom perm (j % k) k then (1 : ℝ) else 0, ?_, ?_⟩, ?_⟩
    · unfold kFoldMasks
      rw [List.getElem?_map, List.getElem?_range (Nat.mod_lt _ hk)]
      rfl
    · dsimp only
      rw [if_pos ((hmem _ (Nat.mod_lt _ hk) pixel j hj).2 rfl)]
    · rintro i ⟨m, hm, h1⟩
      obtain ⟨hi, rfl⟩ := hget i m hm
      dsimp only at h1
      rw [← hmem i hi pixel j hj]
      by_contra hc
      rw [if_neg hc] at h1
      exact zero_ne_one h1

/-- The fold sizes: `N / k` or `N / k + 1` pixels, so they differ by at most one. -/
theorem C41_fold_sizes (k : ℕ) (hk : 1 ≤ k) (N : ℕ) (perm : List ℕ) (hp : perm.Perm (List.range N)) (i : ℕ) (m : ℕ → ℝ)
    (hm : (kFoldMasks k perm)[i]? = some m) :
    #{pixel ∈ range N | m pixel = 1} = N / k + if i < N % k then 1 else 0 := by
  have hnd : perm.Nodup := hp.nodup_iff.2 List.nodup_range
  have hlen : perm.length = N := by rw [hp.length_eq, List.length_range]
  unfold kFoldMasks at hm
  rw [List.getElem?_map, Option.map_eq_some_iff] at hm
  obtain ⟨i', h1, rfl⟩ := hm
  have hi : i < k := by
    by_contra hc
    rw [List.getElem?_eq_none (by simp; omega)] at h1; cases h1
  rw [List.getElem?_range hi] at h1
  cases h1
  have hidx : ∀ a < (perm.length - i + k - 1) / k, i + a * k < perm.length := by
    intro a ha
    rw [Nat.lt_div_iff_mul_lt hk] at ha
    by_contra hc
    omega
  have hset : {pixel ∈ range N | (if pixel ∈ strideFrom perm i k then (1 : ℝ) else 0) = 1} = (strideFrom perm i k).toFinset := by
    ext pixel
    rw [mem_filter, List.mem_toFinset]
    constructor
    · rintro ⟨-, h⟩
      by_contra hc
      rw [if_neg hc] at h
      exact zero_ne_one h
    · intro h
      refine ⟨?_, if_pos h⟩
      obtain ⟨j, -, hj⟩ := (mem_stride hk hi pixel).1 h
      have := hp.subset (List.mem_of_getElem? hj)
      simpa using this
  have hsnd : (strideFrom perm i k).Nodup := by
    unfold strideFrom
    refine List.Nodup.map_on ?_ List.nodup_range
    intro a ha b hb hab
    rw [List.mem_range] at ha hb
    have h1 := hidx a ha
    have h2 := hidx b hb
    rw [List.getD_eq_getElem?_getD, List.getD_eq_getElem?_getD, List.getElem?_eq_getElem h1, List.getElem?_eq_getElem h2] at hab
    simp only [Option.getD_some] at hab
    have := (hnd.getElem_inj_iff).1 hab
    have h3 : a * k = b * k := by omega
    exact Nat.eq_of_mul_eq_mul_right hk h3
  rw [hset, List.toFinset_card_of_nodup hsnd]
  unfold strideFrom
  rw [List.length_map, List.length_range, hlen]
  have hd := Nat.div_add_mod N k
  have hmod := Nat.mod_lt N hk
  split_ifs with h
  · have : N - i + k - 1 = (N % k - i - 1) + k * (N / k + 1) := by
      rw [Nat.mul_add]; omega
    rw [this, Nat.add_mul_div_left _ _ hk, Nat.div_eq_of_lt (by omega)]
    omega
  · rcases Nat.lt_or_ge i N with h' | h'
    · have : N - i + k - 1 = (N % k + k - i - 1) + k * (N / k) := by
        omega
      rw [this, Nat.add_mul_div_left _ _ hk, Nat.div_eq_of_lt (by omega)]
      omega
    · have h0 : N / k = 0 := Nat.div_eq_of_lt (by omega)
      rw [h0, Nat.div_eq_of_lt (by omega)]

example : (kFoldMasks 3 [4, 2, 0, 1, 3]).length = 3 ∧ #{pixel ∈ range 5 | (if pixel ∈ strideFrom [4, 2, 0, 1, 3] 1 3 then (1 : ℝ) else 0) = 1} = 2 := by
  refine ⟨rfl, ?_⟩
  have := C41_fold_sizes 3 (by norm_num) 5 [4, 2, 0, 1, 3] (by decide) 1 _ rfl
  simpa using this

/-! ## C43 -/

section
variable {H R : Type}

private theorem serial_ok {task : Task H R} {hp : List H} {l : List R} (h : serialCompute task hp = .ok l) :
    l.length = hp.length ∧ ∀ (i : ℕ) x, hp[i]? = some x → ∃ r, task x = .ok r ∧ l[i]? = some r := by
  induction hp generalizing l with
  | nil => simp [serialCompute] at h; subst h; simp
  | cons a hp ih =>
    unfold serialCompute at h
    cases ha : task a with
    | error e => rw [ha] at h; cases h
    | ok r =>
      rw [ha] at h
      cases hs : serialCompute task hp with
      | error e => rw [hs] at h; cases h
      | ok l' =>
        rw [hs] at h
        cases h
        obtain ⟨h1, h2⟩ := ih hs
        refine ⟨by simp [h1], ?_⟩
        intro i x hx
        cases i with
        | zero => simp at hx; subst hx; exact ⟨r, ha, rfl⟩
        | succ i => simp at hx ⊢; exact h2 i x hx

private theorem serial_error {task : Task H R} {hp : List H} {e : String} (h : serialCompute task hp = .error e) :
    ∃ x ∈ hp, task x = .error e := by
  induction hp with
  | nil => cases h
  | cons a hp ih =>
    unfold serialCompute at h
    cases ha : task a with
    | error e' => rw [ha] at h; cases h; exact ⟨a, by simp, ha⟩
    | ok r =>
      rw [ha] at h
      cases hs : serialCompute task hp with
      | error e' =>
        rw [hs] at h
        cases h
        obtain ⟨x, hx, hx'⟩ := ih hs
        exact ⟨x, by simp [hx], hx'⟩
      | ok l' => rw [hs] at h; cases h

private theorem loop_ok {task : Task H R} {hp : List H} {l : List R} (hl : l.length = hp.length)
    (hok : ∀ (i : ℕ) x, hp[i]? = some x → ∃ r, task x = .ok r ∧ l[i]? = some r) (order : List ℕ) (recs : List (Option R))
    (hr : recs.length = hp.length) :
    ∃ out, parallelLoop task hp order recs = .ok out ∧ out.length = hp.length ∧
      ∀ i : ℕ, out[i]? = if i ∈ order then l[i]?.map some else recs[i]? := by
  induction order generalizing recs with
  | nil => exact ⟨recs, rfl, hr, fun i => by simp⟩
  | cons a order ih =>
    unfold parallelLoop
    cases ha : hp[a]? with
    | none =>
      obtain ⟨out, h1, h2, h3⟩ := ih recs hr
      refine ⟨out, h1, h2, fun i => ?_⟩
      rw [h3 i]
      by_cases hia : i = a
      · subst hia
        have hlen : hp.length ≤ i := List.getElem?_eq_none_iff.1 ha
        rw [if_pos (show i ∈ i :: order by simp), List.getElem?_eq_none (show l.length ≤ i by omega),
          List.getElem?_eq_none (show recs.length ≤ i by omega)]
        split_ifs <;> rfl
      · simp [hia]
    | some x =>
      obtain ⟨r, hr1, hr2⟩ := hok a x ha
      dsimp only
      rw [hr1]
      dsimp only
      obtain ⟨out, h1, h2, h3⟩ := ih (recs.set a (some r)) (by simpa using hr)
      refine ⟨out, h1, h2, fun i => ?_⟩
      rw [h3 i]
      by_cases hia : i = a
      · subst hia
        have hlt : i < hp.length := by
          by_contra hc
          rw [List.getElem?_eq_none (by omega)] at ha; cases ha
        rw [if_pos (show i ∈ i :: order by simp), hr2, List.getElem?_set_self (by omega)]
        split_ifs <;> rfl
      · rw [List.getElem?_set_ne (by omega)]
        simp [hia]

private theorem loop_error {task : Task H R} {hp : List H} (order : List ℕ) (recs : List (Option R))
    (hbad : ∃ i ∈ order, ∃ x e, hp[i]? = some x ∧ task x = .error e) :
    ∃ e, parallelLoop task hp order recs = .error e ∧ ∃ x ∈ hp, task x = .error e := by
  induction order generalizing recs with
  | nil => obtain ⟨i, hi, -⟩ := hbad; cases hi
  | cons a order ih =>
    obtain ⟨i, hi, x, e, hx, he⟩ := hbad
    unfold parallelLoop
    cases ha : hp[a]? with
    | none =>
      refine ih recs ⟨i, ?_, x, e, hx, he⟩
      rcases List.mem_cons.1 hi with rfl | h
      · rw [ha] at hx; cases hx
      · exact h
    | some y =>
      dsimp only
      cases hy : task y with
      | error e' => exact ⟨e', rfl, y, List.mem_of_getElem? ha, hy⟩
      | ok r =>
        refine ih _ ⟨i, ?_, x, e, hx, he⟩
        rcases List.mem_cons.1 hi with rfl | h
        · rw [ha] at hx; cases hx; rw [hy] at he; cases he
        · exact h

/-- Parallel evaluation is serial evaluation, for any executor and any completion order: the same results in the order of
the hyper-parameter values; and if a task raises, both raise an exception of one of the tasks. -/
theorem C43_parallel_eq_serial (pe : ParallelEval) (task : Task H R) (hp : List H) (order : List ℕ)
    (ho : order.Perm (List.range hp.length)) :
    (∀ l, processHpVals (.threads 0) task hp [] = .ok l → processHpVals pe task hp order = .ok l) ∧
    (∀ l, processHpVals pe task hp order = .ok l ↔ l.length = hp.length ∧
      ∀ (i : ℕ) x, hp[i]? = some x → ∃ r, task x = .ok r ∧ l[i]? = some (some r)) ∧
    ((∃ x ∈ hp, ∃ e, task x = .error e) → ∃ e, processHpVals pe task hp order = .error e ∧ ∃ x ∈ hp, task x = .error e) := by
  have hmem : ∀ i < hp.length, i ∈ order := fun i hi => ho.symm.subset (by simpa using hi)
  -- parallel run, given a successful serial one
  have key : ∀ l, serialCompute task hp = .ok l → parallelCompute task hp order = .ok (l.map some) := by
    intro l hl
    obtain ⟨h1, h2⟩ := serial_ok hl
    obtain ⟨out, h3, h4, h5⟩ := loop_ok h1 h2 order (List.replicate hp.length none) (by simp)
    unfold parallelCompute
    rw [h3]
    congr 1
    apply List.ext_getElem?
    intro i
    rw [h5 i, List.getElem?_map]
    split_ifs with hi
    · rfl
    · have : hp.length ≤ i := by
        by_contra hc
        exact hi (hmem i (by omega))
      rw [List.getElem?_eq_none (by simpa using this), List.getElem?_eq_none (by omega)]
      rfl
  have kerr : (∃ x ∈ hp, ∃ e, task x = .error e) →
      ∃ e, parallelCompute task hp order = .error e ∧ ∃ x ∈ hp, task x = .error e := by
    rintro ⟨x, hx, e, he⟩
    obtain ⟨i, hi⟩ := List.getElem?_of_mem hx
    have hlt : i < hp.length := by
      by_contra hc
      rw [List.getElem?_eq_none (by omega)] at hi; cases hi
    exact loop_error order _ ⟨i, hmem i hlt, x, e, hi, he⟩
  have all : (∃ l, serialCompute task hp = .ok l ∧ processHpVals pe task hp order = .ok (l.map some)) ∨
      ((∃ e, serialCompute task hp = .error e) ∧
        ∃ e, processHpVals pe task hp order = .error e ∧ ∃ x ∈ hp, task x = .error e) := by
    cases hs : serialCompute task hp with
    | ok l =>
      left
      refine ⟨l, rfl, ?_⟩
      cases pe with
      | executor => exact key l hs
      | threads n => cases n with
        | zero => simp [processHpVals, hs, Except.map]
        | succ n => exact key l hs
    | error e =>
      right
      refine ⟨⟨e, rfl⟩, ?_⟩
      obtain ⟨x, hx, he⟩ := serial_error hs
      cases pe with
      | executor => exact kerr ⟨x, hx, e, he⟩
      | threads n => cases n with
        | zero => exact ⟨e, by simp [processHpVals, hs, Except.map], x, hx, he⟩
        | succ n => exact kerr ⟨x, hx, e, he⟩
  refine ⟨?_, ?_, ?_⟩
  · intro l hl
    rcases all with ⟨l', h1, h2⟩ | ⟨⟨e, h1⟩, -⟩
    · rw [h2]
      simpa [processHpVals, h1, Except.map] using hl
    · simp [processHpVals, h1, Except.map] at hl
  · intro l
    constructor
    · intro h
      rcases all with ⟨l', h1, h2⟩ | ⟨-, e, h2, -⟩
      · rw [h2] at h
        cases h
        obtain ⟨h3, h4⟩ := serial_ok h1
        refine ⟨by simp [h3], fun i x hx => ?_⟩
        obtain ⟨r, h5, h6⟩ := h4 i x hx
        exact ⟨r, h5, by simp [h6]⟩
      · rw [h2] at h; cases h
    · rintro ⟨hlen, hl⟩
      rcases all with ⟨l', h1, h2⟩ | ⟨-, e, h2, x, hx, he⟩
      · rw [h2]
        obtain ⟨h3, h4⟩ := serial_ok h1
        congr 1
        apply List.ext_getElem?
        intro i
        rw [List.getElem?_map]
        cases hi : hp[i]? with
        | none =>
          have := List.getElem?_eq_none_iff.1 hi
          rw [List.getElem?_eq_none (by omega), List.getElem?_eq_none (by omega)]
          rfl
        | some x =>
          obtain ⟨r, h5, h6⟩ := h4 i x hi
          obtain ⟨r', h7, h8⟩ := hl i x hi
          rw [h5] at h7
          cases h7
          rw [h6, h8]
          rfl
      · obtain ⟨i, hi⟩ := List.getElem?_of_mem hx
        obtain ⟨r, h5, -⟩ := hl i x hi
        rw [h5] at he
        cases he
  · rintro ⟨x, hx, e, he⟩
    rcases all with ⟨l', h1, -⟩ | ⟨-, h⟩
    · obtain ⟨i, hi⟩ := List.getElem?_of_mem hx
      obtain ⟨r, h5, -⟩ := (serial_ok h1).2 i x hi
      rw [h5] at he
      cases he
    · exact h

example : processHpVals (.threads 4) (fun x : ℕ => Except.ok (x * x)) [5, 3, 3] [2, 0, 1] = .ok [some 25, some 9, some 9] := rfl
end

end Verif
