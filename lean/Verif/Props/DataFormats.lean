import Verif.Model.DataFormats

/-!
# C256–C258: geometries made from the shape of the data
-/

namespace Verif

namespace DataFormat

/-- The axis of name `k` of data of shape `shape`: letter `i` from the end of the format names axis `i` from the end of the data.
(Specification, independent of the loop of the code.) -/
def HasAxis (format : List Char) (shape : List ℕ) (k : Char) (n : ℕ) : Prop :=
  ∃ i : ℕ, format.reverse[i]? = some k ∧ shape.reverse[i]? = some n

private theorem fold_none (l : List (Char × ℕ)) (d : Char → Option ℕ) (k : Char) (h : ∀ e ∈ l, e.1 ≠ k) :
    l.foldl (fun (d : Char → Option ℕ) e => Function.update d e.1 (some e.2)) d k = d k := by
  induction l generalizing d with
  | nil => rfl
  | cons e l ih =>
    simp only [List.foldl_cons]
    rw [ih _ fun x hx => h x (List.mem_cons_of_mem _ hx)]
    exact Function.update_of_ne (h e List.mem_cons_self).symm _ _

private theorem fold_mem (l : List (Char × ℕ)) (d : Char → Option ℕ) (k : Char) (n : ℕ) (hd : d k = none)
    (hn : (l.map (·.1)).Nodup) :
    l.foldl (fun (d : Char → Option ℕ) e => Function.update d e.1 (some e.2)) d k = some n ↔ (k, n) ∈ l := by
  induction l generalizing d with
  | nil => simp [hd]
  | cons e l ih =>
    obtain ⟨hx, hl⟩ := List.nodup_cons.1 (by simpa using hn : ((e.1) :: l.map (·.1)).Nodup)
    simp only [List.foldl_cons]
    by_cases hek : e.1 = k
    · rw [fold_none l _ k (fun x hxl hxk => hx (hek ▸ hxk ▸ List.mem_map_of_mem hxl))]
      have : Function.update d e.1 (some e.2) k = some e.2 := by rw [← hek]; exact Function.update_self ..
      rw [this]
      constructor
      · intro h
        have : e = (k, n) := Prod.ext hek (Option.some.inj h)
        rw [this]; exact List.mem_cons_self
      · intro h
        rcases List.mem_cons.1 h with h | h
        · rw [← h]
        · exact absurd (List.mem_map_of_mem (f := fun x : Char × ℕ => x.1) h) (by simpa [hek] using hx)
    · rw [ih _ (by rw [Function.update_of_ne (Ne.symm hek)]; exact hd) hl]
      constructor
      · exact List.mem_cons_of_mem _
      · intro h
        rcases List.mem_cons.1 h with h | h
        · exact absurd (by rw [← h]) hek
        · exact h

private theorem zip_mem {format : List Char} {shape : List ℕ} (h : shape.length ≤ format.length) (k : Char) (n : ℕ) :
    (k, n) ∈ (format.drop (format.length - shape.length)).zip shape ↔ HasAxis format shape k n := by
  have hl : (format.drop (format.length - shape.length)).length = shape.length := by
    rw [List.length_drop]; omega
  rw [List.mem_iff_getElem?]
  unfold HasAxis
  constructor
  · rintro ⟨i, hi⟩
    rw [List.getElem?_zip_eq_some] at hi
    obtain ⟨h1, h2⟩ := hi
    have hil : i < shape.length := (List.getElem?_eq_some_iff.1 h2).1
    refine ⟨shape.length - 1 - i, ?_, ?_⟩
    · rw [List.getElem?_reverse (by omega)]
      rw [List.getElem?_drop] at h1
      rw [← h1]; congr 1; omega
    · rw [List.getElem?_reverse (by omega), ← h2]; congr 1; omega
  · rintro ⟨i, h1, h2⟩
    have hil : i < shape.length := by simpa using (List.getElem?_eq_some_iff.1 h2).1
    refine ⟨shape.length - 1 - i, ?_⟩
    rw [List.getElem?_zip_eq_some]
    rw [List.getElem?_reverse (by omega)] at h1
    rw [List.getElem?_reverse (by omega)] at h2
    refine ⟨?_, h2⟩
    rw [List.getElem?_drop, ← h1]; congr 1; omega

/-- **C256.** The letters of the format name the axes, counted from the end; data with more axes than letters raise. -/
theorem C256_axes_by_format (format : List Char) (shape : List ℕ) (hf : format.Nodup) :
    (format.length < shape.length → dataDims format shape = .error .indexError) ∧
    (shape.length ≤ format.length → ∃ dims, dataDims format shape = .ok dims ∧
      ∀ k n, dims k = some n ↔ HasAxis format shape k n) := by
  refine ⟨fun h => if_pos h, fun h => ⟨_, if_neg (by omega), fun k n => ?_⟩⟩
  rw [fold_mem _ _ _ _ rfl, zip_mem h]
  have hl : (format.drop (format.length - shape.length)).length = shape.length := by
    rw [List.length_drop]; omega
  have : ((format.drop (format.length - shape.length)).zip shape).map (·.1) = format.drop (format.length - shape.length) :=
    List.map_fst_zip (by omega)
  rw [this]
  exact hf.sublist (List.drop_sublist _ _)

private theorem dims_ok {format : List Char} {shape : List ℕ} (hf : format.Nodup) (h : shape.length ≤ format.length) :
    ∃ dims, dataDims format shape = .ok dims ∧ ∀ k n, dims k = some n ↔ HasAxis format shape k n :=
  (C256_axes_by_format format shape hf).2 h

private theorem dims_none {dims : Char → Option ℕ} {format : List Char} {shape : List ℕ}
    (hd : ∀ k n, dims k = some n ↔ HasAxis format shape k n) (k : Char) : dims k = none ↔ ∀ n, ¬ HasAxis format shape k n := by
  rw [Option.eq_none_iff_forall_ne_some]
  exact forall_congr' fun n => not_congr (hd k n)

/-- **C256.** The default volume is as wide as the data along U, less the padding (twice an integer, or the two values of a pair), in X and Y, as high
as the data along V if the format names such an axis, refined by the super-sampling; it exists exactly if there is an axis U and the padding is
an integer or a pair. -/
theorem C256_default_volume (format : List Char) (shape : List ℕ) (hf : format.Nodup) (hs : shape.length ≤ format.length)
    (pad : Padding) (ss : ℕ) (hss : 0 < ss) (g : VolGeom) :
    volGeomOfData format shape pad ss = .ok g ↔
      ∃ u : ℕ, HasAxis format shape 'u' u ∧ g.vox = 1 / ss ∧
        ∃ m : ℤ, ((∃ p, pad = .int p ∧ m = u - 2 * p) ∨ ∃ a b, pad = .seq [a, b] ∧ m = u - a - b) ∧
          ((∃ v : ℕ, HasAxis format shape 'v' v ∧ g.xyz = [m * ss, m * ss, v * ss]) ∨
            ((∀ v, ¬ HasAxis format shape 'v' v) ∧ g.xyz = [m * ss, m * ss])) := by
  obtain ⟨dims, hok, hd⟩ := dims_ok hf hs
  have hss' : ss ≠ 0 := by omega
  unfold volGeomOfData
  rw [hok]
  show (match dims 'u' with
    | none => .error .valueError
    | some u => (do
      let t ← pad.total
      let n : ℤ := u - t
      if ss = 0 then .error .zeroDivision
      else .ok ⟨([n, n] ++ ((dims 'v').map fun v : ℕ => (v : ℤ)).toList).map (· * (ss : ℤ)), 1 / ss⟩) : Except Exc VolGeom) = .ok g ↔ _
  have hvol : ∀ m : ℤ, (⟨([m, m] ++ ((dims 'v').map fun v : ℕ => (v : ℤ)).toList).map (· * (ss : ℤ)), 1 / ss⟩ : VolGeom) = g ↔
      g.vox = 1 / ss ∧ ((∃ v : ℕ, HasAxis format shape 'v' v ∧ g.xyz = [m * ss, m * ss, v * ss]) ∨
            ((∀ v, ¬ HasAxis format shape 'v' v) ∧ g.xyz = [m * ss, m * ss])) := by
    intro m
    obtain ⟨x, w⟩ := g
    cases hv : dims 'v' with
    | none =>
      have h1 := (dims_none hd 'v').1 hv
      constructor
      · intro h
        injection h with h1' h2'
        subst h1' h2'
        exact ⟨rfl, Or.inr ⟨h1, rfl⟩⟩
      · rintro ⟨h2, h | h⟩
        · obtain ⟨v, hv', _⟩ := h
          exact absurd hv' (h1 v)
        · have h3 := h.2
          simp only at h2 h3
          rw [h2, h3]; rfl
    | some v =>
      have h1 := (hd 'v' v).1 hv
      constructor
      · intro h
        injection h with h1' h2'
        subst h1' h2'
        exact ⟨rfl, Or.inl ⟨v, h1, rfl⟩⟩
      · rintro ⟨h2, h | h⟩
        · obtain ⟨v', hv', h3⟩ := h
          have : v' = v := Option.some.inj (((hd 'v' v').2 hv').symm.trans hv)
          subst this
          simp only at h2 h3
          rw [h2, h3]; rfl
        · exact absurd h1 (h.1 v)
  cases hu : dims 'u' with
  | none =>
    have h1 := (dims_none hd 'u').1 hu
    refine ⟨fun h => (by cases h), ?_⟩
    rintro ⟨u, hu', _⟩
    exact absurd hu' (h1 u)
  | some u =>
    have h1 := (hd 'u' u).1 hu
    have huniq : ∀ u', HasAxis format shape 'u' u' → u' = u := fun u' h' =>
      Option.some.inj (((hd 'u' u').2 h').symm.trans hu)
    match pad with
    | .int p =>
      show (if ss = 0 then Except.error Exc.zeroDivision else Except.ok (⟨([(u : ℤ) - p * 2, u - p * 2] ++ _).map _, _⟩ : VolGeom)) = _ ↔ _
      rw [if_neg hss', Except.ok.injEq, hvol]
      constructor
      · rintro ⟨h2, h3⟩
        exact ⟨u, h1, h2, (u : ℤ) - p * 2, Or.inl ⟨p, rfl, by ring⟩, h3⟩
      · rintro ⟨u', h', h2, m, hm, h3⟩
        rw [huniq u' h'] at hm
        rcases hm with ⟨p', hp, hm⟩ | ⟨_, _, hp, _⟩
        · injection hp with hp
          have : m = (u : ℤ) - p * 2 := by rw [hm, hp]; ring
          rw [this] at h3
          exact ⟨h2, h3⟩
        · cases hp
    | .seq [a, b] =>
      show (if ss = 0 then Except.error Exc.zeroDivision else Except.ok (⟨([(u : ℤ) - (a + b), u - (a + b)] ++ _).map _, _⟩ : VolGeom)) = _ ↔ _
      rw [if_neg hss', Except.ok.injEq, hvol]
      constructor
      · rintro ⟨h2, h3⟩
        exact ⟨u, h1, h2, _, Or.inr ⟨a, b, rfl, by ring⟩, h3⟩
      · rintro ⟨u', h', h2, m, hm, h3⟩
        rw [huniq u' h'] at hm
        rcases hm with ⟨p', hp, hm⟩ | ⟨a', b', hp, hm⟩
        · cases hp
        · simp only [Padding.seq.injEq, List.cons.injEq, and_true] at hp
          have : m = (u : ℤ) - (a + b) := by rw [hm, hp.1, hp.2]; ring
          rw [this] at h3
          exact ⟨h2, h3⟩
    | .seq [] =>
      refine ⟨fun h => (by cases h), ?_⟩
      rintro ⟨_, _, _, m, hm, _⟩
      rcases hm with ⟨_, hp, _⟩ | ⟨_, _, hp, _⟩
      · cases hp
      · simp at hp
    | .seq [a] =>
      refine ⟨fun h => (by cases h), ?_⟩
      rintro ⟨_, _, _, m, hm, _⟩
      rcases hm with ⟨_, hp, _⟩ | ⟨_, _, hp, _⟩
      · cases hp
      · simp at hp
    | .seq (a :: b :: c :: l) =>
      refine ⟨fun h => (by cases h), ?_⟩
      rintro ⟨_, _, _, m, hm, _⟩
      rcases hm with ⟨_, hp, _⟩ | ⟨_, _, hp, _⟩
      · cases hp
      · simp at hp

/-- Non-vacuity of C256: slices of a stack in an order that is not the default one, and a pair of paddings. -/
example : HasAxis "wvu".toList [180, 7, 100] 'v' 7 ∧ HasAxis "wvu".toList [180, 7, 100] 'u' 100 ∧ ("wvu".toList).Nodup ∧
    (∀ n, ¬ HasAxis "dvwu".toList [180, 100] 'v' n) := by
  refine ⟨⟨1, by decide⟩, ⟨0, by decide⟩, by decide, ?_⟩
  rintro n ⟨i, h1, h2⟩
  match i, h1, h2 with
  | 0, h1, _ => exact absurd h1 (by decide)
  | 1, h1, _ => exact absurd h1 (by decide)
  | n + 2, _, h2 => simp at h2

/-! ## C257: the detector -/

/-- **C257.** The detector of a parallel 3D geometry made from the data has the rows and columns of the data, that of a 2D geometry the columns, whatever
the order of the axes; exactly the data without the axes needed are rejected. -/
theorem C257_parallel_detector (format : List Char) (shape : List ℕ) (hf : format.Nodup) (hs : shape.length ≤ format.length)
    (det : List ℕ) :
    (parallelDetShape "3d".toList format shape = .ok det ↔
      ∃ v u, HasAxis format shape 'v' v ∧ HasAxis format shape 'u' u ∧ det = [v, u]) ∧
    (parallelDetShape "2d".toList format shape = .ok det ↔ ∃ u, HasAxis format shape 'u' u ∧ det = [u]) := by
  obtain ⟨dims, hok, hd⟩ := dims_ok hf hs
  have hne : ("2d".toList = "3d".toList) = False := by simp
  constructor
  · unfold parallelDetShape
    rw [hok]
    show (match dims 'u' with
      | none => .error .valueError
      | some u => if "3d".toList = "3d".toList then (match dims 'v' with | none => .error .valueError | some v => .ok [v, u])
          else .ok [u] : Except Exc (List ℕ)) = .ok det ↔ _
    rw [← exists_comm]
    simp only [← hd]
    cases hu : dims 'u' <;> cases hv : dims 'v' <;> simp [eq_comm]
  · unfold parallelDetShape
    rw [hok]
    show (match dims 'u' with
      | none => .error .valueError
      | some u => if "2d".toList = "3d".toList then (match dims 'v' with | none => .error .valueError | some v => .ok [v, u])
          else .ok [u] : Except Exc (List ℕ)) = .ok det ↔ _
    simp only [hne, if_false, ← hd]
    cases hu : dims 'u' <;> simp [eq_comm]

/-- **C257.** The same for a cone-beam geometry, which needs both axes. -/
theorem C257_cone_detector (format : List Char) (shape : List ℕ) (hf : format.Nodup) (hs : shape.length ≤ format.length)
    (det : List ℕ) :
    coneDetShape format shape = .ok det ↔ ∃ v u, HasAxis format shape 'v' v ∧ HasAxis format shape 'u' u ∧ det = [v, u] := by
  obtain ⟨dims, hok, hd⟩ := dims_ok hf hs
  unfold coneDetShape
  rw [hok]
  show (match dims 'v', dims 'u' with
    | some v, some u => .ok [v, u]
    | _, _ => .error .valueError : Except Exc (List ℕ)) = .ok det ↔ _
  simp only [← hd]
  cases hu : dims 'u' <;> cases hv : dims 'v' <;> simp [eq_comm]

/-- **C257.** A projector from the default volume (no padding, any super-sampling) and one from the geometry made from the data agree: the default
projection shape is the detector shape with the angles in between. -/
theorem C257_default_shapes_agree (format : List Char) (shape : List ℕ) (hf : format.Nodup) (hs : shape.length ≤ format.length)
    (ss nA v u : ℕ) (hss : 0 < ss) (hv : HasAxis format shape 'v' v) (hu : HasAxis format shape 'u' u) :
    ∃ (xyz : List ℕ) (vox : ℝ), volGeomOfData format shape (.int 0) ss = .ok ⟨xyz.map fun n : ℕ => (n : ℤ), vox⟩ ∧
      parallelDetShape "3d".toList format shape = .ok [v, u] ∧ coneDetShape format shape = .ok [v, u] ∧
      prjShape xyz vox nA = [v, nA, u] := by
  refine ⟨[u * ss, u * ss, v * ss], 1 / ss, ?_, ((C257_parallel_detector format shape hf hs _).1).2 ⟨v, u, hv, hu, rfl⟩,
    (C257_cone_detector format shape hf hs _).2 ⟨v, u, hv, hu, rfl⟩, ?_⟩
  · refine (C256_default_volume format shape hf hs (.int 0) ss hss _).2
      ⟨u, hu, rfl, u, Or.inl ⟨0, rfl, by simp⟩, Or.inl ⟨v, hv, by simp⟩⟩
  · have hfl : ∀ n : ℕ, ⌊((n * ss : ℕ) : ℝ) * (1 / ss)⌋₊ = n := by
      intro n
      have : ((n * ss : ℕ) : ℝ) * (1 / ss) = n := by
        have : (ss : ℝ) ≠ 0 := by positivity
        push_cast; field_simp
      rw [this, Nat.floor_natCast]
    unfold prjShape
    have : shapeZxy [u * ss, u * ss, v * ss] = [v * ss, u * ss, u * ss] := rfl
    rw [this]
    simp only [List.map_cons, List.map_nil]
    rw [hfl, hfl]
    rfl

/-- **C257, violated.** With the type written as in the documentation (`"parallel3d"`), a geometry of three dimensions is returned whose name is none
of the types known to the package, and whose detector has no rows axis although the data have one: only `"3d"` and `"2d"` work. -/
theorem C257_documented_type_violated :
    parallelName "parallel3d".toList = "parallelparallel3d".toList ∧ parallelNdim (parallelName "parallel3d".toList) = some 3 ∧
    ∀ (format : List Char) (shape : List ℕ) (v u : ℕ), format.Nodup → shape.length ≤ format.length → HasAxis format shape 'v' v →
      HasAxis format shape 'u' u →
      parallelDetShape "parallel3d".toList format shape = .ok [u] ∧ parallelDetShape "3d".toList format shape = .ok [v, u] := by
  refine ⟨by decide, by decide, fun format shape v u hf hs hv hu => ⟨?_, ((C257_parallel_detector format shape hf hs _).1).2 ⟨v, u, hv, hu, rfl⟩⟩⟩
  obtain ⟨dims, hok, hd⟩ := dims_ok hf hs
  unfold parallelDetShape
  rw [hok]
  show (match dims 'u' with
      | none => .error .valueError
      | some u => if "parallel3d".toList = "3d".toList then (match dims 'v' with | none => .error .valueError | some v => .ok [v, u])
          else .ok [u] : Except Exc (List ℕ)) = .ok [u]
  rw [(hd 'u' u).2 hu]
  have hne : ("parallel3d".toList = "3d".toList) = False := by simp
  simp only [hne, if_false]

/-- **C257, proved part:** see `C257_parallel_detector`: for the types `"3d"` and `"2d"` the number of dimensions is that of the type and the detector
has that many axes less one. -/
theorem C257_types_partial (format : List Char) (shape : List ℕ) (hf : format.Nodup) (hs : shape.length ≤ format.length) (n : ℕ)
    (t : List Char) (ht : t = "2d".toList ∧ n = 2 ∨ t = "3d".toList ∧ n = 3) :
    parallelNdim (parallelName t) = some n ∧ ∀ det, parallelDetShape t format shape = .ok det → det.length + 1 = n := by
  rcases ht with ⟨rfl, rfl⟩ | ⟨rfl, rfl⟩
  · refine ⟨by decide, fun det h => ?_⟩
    obtain ⟨u, _, rfl⟩ := ((C257_parallel_detector format shape hf hs det).2).1 h
    rfl
  · refine ⟨by decide, fun det h => ?_⟩
    obtain ⟨v, u, _, _, rfl⟩ := ((C257_parallel_detector format shape hf hs det).1).1 h
    rfl

/-- Non-vacuity of C257. -/
example : parallelDetShape "3d".toList "wvu".toList [180, 7, 100] = .ok [7, 100] ∧
    parallelDetShape "3d".toList "dvwu".toList [180, 100] = .error .valueError ∧
    coneDetShape "dvwu".toList [7, 180, 100] = .ok [7, 100] := by decide

/-! ## C258: sizes of the default volume -/

/-- **C258, violated.** Padding by more than half the width of the data does not raise: the volume gets a negative size. -/
theorem C258_negative_volume_violated :
    ¬ ∀ (format : List Char) (shape : List ℕ) (pad : Padding) (ss : ℕ) (g : VolGeom),
      volGeomOfData format shape pad ss = .ok g → ∀ n ∈ g.xyz, 0 ≤ n := by
  intro h
  have := h "dvwu".toList [180, 100] (.int 51) 1 ⟨[-2, -2], 1⟩ ((C256_default_volume _ _ (by decide) (by decide) _ 1 (by decide) _).2
    ⟨100, ⟨0, by decide⟩, by simp, -2, Or.inl ⟨51, rfl, by decide⟩, Or.inr ⟨?_, by decide⟩⟩) (-2) (by simp)
  · exact absurd this (by decide)
  · rintro n ⟨i, h1, h2⟩
    match i, h1, h2 with
    | 0, h1, _ => exact absurd h1 (by decide)
    | 1, h1, _ => exact absurd h1 (by decide)
    | n + 2, _, h2 => simp at h2

/-- **C258, proved part:** for paddings whose sum does not exceed the width of the data no size is negative, and no voxel is lost or added: the width times
the voxel size is the number of unpadded columns. -/
theorem C258_sizes_partial (format : List Char) (shape : List ℕ) (hf : format.Nodup) (hs : shape.length ≤ format.length)
    (a b : ℤ) (ss u : ℕ) (hss : 0 < ss) (hu : HasAxis format shape 'u' u) (hab : a + b ≤ u) :
    ∃ g, volGeomOfData format shape (.seq [a, b]) ss = .ok g ∧ (∀ n ∈ g.xyz, 0 ≤ n) ∧
      ∀ n ∈ g.xyz.take 2, (n : ℝ) * g.vox = u - (a + b) := by
  obtain ⟨dims, hok, hd⟩ := dims_ok hf hs
  have hss' : (ss : ℝ) ≠ 0 := by positivity
  have hm : (0 : ℤ) ≤ (u - (a + b)) * ss := mul_nonneg (by omega) (by positivity)
  have hw : (((u - (a + b)) * ss : ℤ) : ℝ) * (1 / ss) = u - (a + b) := by push_cast; field_simp
  cases hv : dims 'v' with
  | none =>
    refine ⟨⟨[(u - (a + b)) * ss, (u - (a + b)) * ss], 1 / ss⟩, (C256_default_volume _ _ hf hs _ ss hss _).2
      ⟨u, hu, rfl, u - (a + b), Or.inr ⟨a, b, rfl, by ring⟩, Or.inr ⟨(dims_none hd 'v').1 hv, rfl⟩⟩, ?_, ?_⟩
    · intro n hn
      simp only [List.mem_cons, List.not_mem_nil, or_false, or_self] at hn
      rw [hn]; exact hm
    · intro n hn
      simp only [List.take, List.mem_cons, List.not_mem_nil, or_false, or_self] at hn
      rw [hn]; exact hw
  | some v =>
    refine ⟨⟨[(u - (a + b)) * ss, (u - (a + b)) * ss, v * ss], 1 / ss⟩, (C256_default_volume _ _ hf hs _ ss hss _).2
      ⟨u, hu, rfl, u - (a + b), Or.inr ⟨a, b, rfl, by ring⟩, Or.inl ⟨v, (hd 'v' v).1 hv, rfl⟩⟩, ?_, ?_⟩
    · intro n hn
      simp only [List.mem_cons, List.not_mem_nil, or_false] at hn
      rcases hn with rfl | rfl | rfl
      · exact hm
      · exact hm
      · positivity
    · intro n hn
      simp only [List.take, List.mem_cons, List.not_mem_nil, or_false, or_self] at hn
      rw [hn]; exact hw

/-- Non-vacuity of C258. -/
example : HasAxis "dvwu".toList [180, 100] 'u' 100 ∧ (10 : ℤ) + 20 ≤ 100 := ⟨⟨0, by decide⟩, by norm_num⟩

/-! ## Directions of the rotation axis -/

/-- **C257.** The two directions are opposite unit vectors along Z, whatever the letter case; every other name raises; a vector is taken as it is. -/
theorem C257_rotation_directions (s : String) (l : List ℝ) :
    (s.toLower = "clockwise" → getRotAxisDir (.name s) = .ok [0, 0, -1]) ∧
    (s.toLower = "counter-clockwise" → getRotAxisDir (.name s) = .ok [0, 0, 1]) ∧
    (s.toLower ≠ "clockwise" → s.toLower ≠ "counter-clockwise" → getRotAxisDir (.name s) = .error .valueError) ∧
    getRotAxisDir (.vec l) = .ok l := by
  refine ⟨fun h => ?_, fun h => ?_, fun h h' => ?_, rfl⟩
  · simp [getRotAxisDir, h]
  · simp [getRotAxisDir, h]
  · simp [getRotAxisDir, h, h']

end DataFormat

end Verif
