import Verif.Model.AstraShapes

/-!
# C238–C242: shapes, indices and voxel sizes of the ASTRA backends
-/

namespace Verif

open Astra

/-! ## Lemmas -/

private theorem fromEnd_len {g : List ℕ} {i n : ℕ} (h : fromEnd g i = some n) : i ≤ g.length := by
  unfold fromEnd at h; split at h
  · assumption
  · cases h

private theorem check_iff (vu g : List ℕ) : checkPrjShape vu g = .ok () ↔
    ∀ i, 1 ≤ i → i ≤ vu.length → 1 < (fromEnd vu i).getD 0 → fromEnd g i = fromEnd vu i := by
  have hmem : ∀ i, i ∈ ((List.range vu.length).map (· + 1)).filter (fun i => decide (1 < (fromEnd vu i).getD 0)) ↔
      (1 ≤ i ∧ i ≤ vu.length) ∧ 1 < (fromEnd vu i).getD 0 := by
    intro i
    simp only [List.mem_filter, List.mem_map, List.mem_range, decide_eq_true_eq]
    refine and_congr_left fun _ => ⟨?_, ?_⟩
    · rintro ⟨j, hj, rfl⟩; omega
    · rintro ⟨h1, h2⟩; exact ⟨i - 1, by omega, by omega⟩
  unfold checkPrjShape
  dsimp only
  constructor
  · intro h i hi hl hv
    have hi' := (hmem i).2 ⟨⟨hi, hl⟩, hv⟩
    by_contra hne
    split_ifs at h with h1 h2
    exact h2 (List.any_eq_true.2 ⟨i, hi', by simpa using hne⟩)
  · intro h
    rw [if_neg, if_neg]
    · intro h2
      obtain ⟨i, hi, hne⟩ := List.any_eq_true.1 h2
      have hi := (hmem i).1 hi
      exact (of_decide_eq_true hne) (h _ hi.1.1 hi.1.2 hi.2)
    · intro h2
      obtain ⟨i, hi, hne⟩ := List.any_eq_true.1 h2
      have hi := (hmem i).1 hi
      have hlt := of_decide_eq_true hne
      have := h _ hi.1.1 hi.1.2 hi.2
      cases hq : fromEnd vu i with
      | none => have := hi.2; rw [hq] at this; simp at this
      | some q => rw [hq] at this; have := fromEnd_len this; omega

private theorem fp_ok {k : Kind} {s : Shapes} {one : Bool} {g : List ℕ} (h : fpShape k s one = .ok g) :
    (one = true → s.single = true) ∧ g = (match k, one with
      | .astra, false => s.vwu.filter (· ≠ 1)
      | .astra, true => s.vu.filter (· ≠ 1)
      | .direct, false => s.vwu
      | .direct, true => s.angleOut) := by
  unfold fpShape at h
  by_cases hc : one = true ∧ s.single = false
  · rw [if_pos hc] at h; cases h
  · rw [if_neg hc] at h
    refine ⟨fun h1 => by by_contra h2; exact hc ⟨h1, by simpa using h2⟩, ?_⟩
    cases k <;> cases one <;> simp only [Except.ok.injEq] at h <;> exact h.symm

private theorem check3 (V U : ℕ) (g : List ℕ) : checkPrjShape [V, 1, U] g = .ok () ↔
    (1 < U → fromEnd g 1 = some U) ∧ (1 < V → fromEnd g 3 = some V) := by
  rw [check_iff]
  constructor
  · intro h
    exact ⟨fun hU => by simpa [fromEnd] using h 1 (by norm_num) (by simp) (by simpa [fromEnd] using hU),
      fun hV => by simpa [fromEnd] using h 3 (by norm_num) (by simp) (by simpa [fromEnd] using hV)⟩
  · rintro ⟨h1, h3⟩ i hi hl hv
    simp only [List.length_cons, List.length_nil] at hl
    have : i = 1 ∨ i = 2 ∨ i = 3 := by omega
    rcases this with rfl | rfl | rfl
    · rw [h1 (by simpa [fromEnd] using hv)]; simp [fromEnd]
    · simp [fromEnd] at hv
    · rw [h3 (by simpa [fromEnd] using hv)]; simp [fromEnd]

private theorem check2 (U : ℕ) (g : List ℕ) : checkPrjShape [1, U] g = .ok () ↔ (1 < U → fromEnd g 1 = some U) := by
  rw [check_iff]
  constructor
  · intro h hU
    simpa [fromEnd] using h 1 (by norm_num) (by simp) (by simpa [fromEnd] using hU)
  · intro h1 i hi hl hv
    simp only [List.length_cons, List.length_nil] at hl
    have : i = 1 ∨ i = 2 := by omega
    rcases this with rfl | rfl
    · rw [h1 (by simpa [fromEnd] using hv)]; simp [fromEnd]
    · simp [fromEnd] at hv

private theorem checkData_iff (g e : List ℕ) : checkData g e = .ok () ↔ g.prod = e.prod := by
  unfold checkData; split <;> simp_all

private theorem prod_squeeze (s : List ℕ) : (s.filter (· ≠ 1)).prod = s.prod := by
  induction s with
  | nil => rfl
  | cons a s ih =>
    by_cases h : a = 1
    · subst h; simpa using ih
    · rw [List.filter_cons_of_pos (by simpa using h), List.prod_cons, List.prod_cons, ih]

private theorem bp_iff (s : Shapes) (one : Bool) (g : List ℕ) : bpChecks s one g = .ok () ↔
    checkPrjShape s.vu g = .ok () ∧ (one = true → s.single = true) ∧
      g.prod = (if one then s.linkedVu else s.linkedVwu).prod := by
  unfold bpChecks
  cases hc : checkPrjShape s.vu g with
  | error e => simp [bind, Except.bind]
  | ok _ =>
    cases one
    · simp [bind, Except.bind, checkData_iff]
    · cases hs : s.single <;> simp [bind, Except.bind, checkData_iff]

private theorem shape2 (nx ny : ℕ) (vox : ℝ) (n : ℕ) : prjShape [nx, ny] vox n = [n, ⌊(ny : ℝ) * vox⌋₊] := by
  simp [prjShape, shapeZxy]

private theorem shape3 (nx ny nz : ℕ) (vox : ℝ) (n : ℕ) :
    prjShape [nx, ny, nz] vox n = [⌊(nz : ℝ) * vox⌋₊, n, ⌊(ny : ℝ) * vox⌋₊] := by
  simp [prjShape, shapeZxy]

/-- Specification: the detector of a projector for a 3D volume, `(V, U)`: what the geometry says, or the volume seen from the side
in units of pixels. -/
noncomputable def detector3 (ny nz : ℕ) (vox : ℝ) : Option (ℕ × ℕ) → ℕ × ℕ
  | some d => d
  | none => (⌊(nz : ℝ) * vox⌋₊, ⌊(ny : ℝ) * vox⌋₊)

/-- Specification: the detector of a projector for a 2D volume, `U`. -/
noncomputable def detector2 (ny : ℕ) (vox : ℝ) : Option ℕ → ℕ
  | some d => d
  | none => ⌊(ny : ℝ) * vox⌋₊

private theorem shapes3 (k : Kind) (nx ny nz : ℕ) (hz : 1 < nz) (vox : ℝ) (nA : ℕ) (det : Option (ℕ × ℕ)) (single : Bool) :
    shapes k [nx, ny, nz] vox nA (det.map fun d => [d.1, d.2]) single =
      ⟨[(detector3 ny nz vox det).1, nA, (detector3 ny nz vox det).2], [(detector3 ny nz vox det).1, 1, (detector3 ny nz vox det).2],
        [(detector3 ny nz vox det).1, nA, (detector3 ny nz vox det).2], [(detector3 ny nz vox det).1, 1, (detector3 ny nz vox det).2],
        if k = .astra then [(detector3 ny nz vox det).1, 1, (detector3 ny nz vox det).2]
        else [(detector3 ny nz vox det).1, (detector3 ny nz vox det).2], single⟩ := by
  cases k <;> cases det <;> simp [shapes, shape3, detector3, is3D, withAngles, padTwo, fromEnd, hz]

private theorem shapes2 (k : Kind) (nx ny : ℕ) (vox : ℝ) (nA : ℕ) (det : Option ℕ) (single : Bool) :
    shapes k [nx, ny] vox nA (det.map fun d => [d]) single =
      ⟨[nA, detector2 ny vox det], [1, detector2 ny vox det],
        if k = .astra then [nA, detector2 ny vox det] else [1, nA, detector2 ny vox det],
        if k = .astra then [1, detector2 ny vox det] else [1, 1, detector2 ny vox det],
        [1, detector2 ny vox det], single⟩ := by
  cases k <;> cases det <;> simp [shapes, shape2, detector2, is3D, withAngles, padTwo, fromEnd]

private theorem last_squeeze (s : List ℕ) (U : ℕ) (hU : 1 < U) : fromEnd ((s ++ [U]).filter (· ≠ 1)) 1 = some U := by
  rw [List.filter_append, List.filter_cons_of_pos (by simp; omega)]
  simp [fromEnd]

/-! ## C238 -/

/-- C238, 2D volumes: what `fp` returns for all angles, or for one, can be given to `bp`, with both backends. -/
theorem C238_two_dimensional_partial (k : Kind) (nx ny : ℕ) (vox : ℝ) (nA : ℕ) (det : Option ℕ) (single one : Bool) (g : List ℕ)
    (h : fpShape k (shapes k [nx, ny] vox nA (det.map fun d => [d]) single) one = .ok g) :
    bpChecks (shapes k [nx, ny] vox nA (det.map fun d => [d]) single) one g = .ok () := by
  rw [shapes2] at h ⊢
  rw [bp_iff]
  dsimp only
  rw [check2]
  generalize detector2 ny vox det = U at h ⊢
  obtain ⟨hs, h⟩ := fp_ok h
  · cases k <;> cases one <;> dsimp only at h hs <;> subst h
    · exact ⟨fun hU => last_squeeze [nA] U hU, by simp, by rw [prod_squeeze]; simp⟩
    · exact ⟨fun hU => last_squeeze [1] U hU, hs, by rw [prod_squeeze]; simp⟩
    · exact ⟨fun hU => by simp [fromEnd], by simp, by simp⟩
    · exact ⟨fun hU => by simp [fromEnd], hs, by simp⟩

example : bpChecks (shapes .astra [20, 20] 1 36 none true) true [20] = .ok () := by
  have := C238_two_dimensional_partial .astra 20 20 1 36 none true true [20] (by
    rw [shapes2]; simp [fpShape, detector2])
  simpa using this

/-- C238, 3D volumes: exactly when what `fp` returns can be given to `bp`. All angles with the direct backend: always. All angles with the
ASTRA backend: if the detector has at most one row, or if there is more than one angle and more than one column. One angle, with both
backends: only if the detector has at most one row. In the other cases `bp` raises `IndexError`. -/
theorem C238_three_dimensional_partial (k : Kind) (nx ny nz : ℕ) (hz : 1 < nz) (vox : ℝ) (nA : ℕ) (det : Option (ℕ × ℕ)) (single one : Bool)
    (g : List ℕ) (h : fpShape k (shapes k [nx, ny, nz] vox nA (det.map fun d => [d.1, d.2]) single) one = .ok g) :
    (bpChecks (shapes k [nx, ny, nz] vox nA (det.map fun d => [d.1, d.2]) single) one g = .ok () ↔
      (detector3 ny nz vox det).1 ≤ 1 ∨
        (one = false ∧ (k = .direct ∨ (nA ≠ 1 ∧ (detector3 ny nz vox det).2 ≠ 1)))) ∧
    (bpChecks (shapes k [nx, ny, nz] vox nA (det.map fun d => [d.1, d.2]) single) one g = .ok () ∨
      bpChecks (shapes k [nx, ny, nz] vox nA (det.map fun d => [d.1, d.2]) single) one g = .error "IndexError") := by
  rw [shapes3 _ _ _ _ hz] at h ⊢
  generalize (detector3 ny nz vox det).1 = V at h ⊢
  generalize (detector3 ny nz vox det).2 = U at h ⊢
  have key : ∀ s : Shapes, s.vu = [V, 1, U] → (g.length < 3 → 1 < V → bpChecks s one g = .error "IndexError") := by
    intro s hs hg hV
    have : checkPrjShape s.vu g = .error "IndexError" := by
      rw [hs]; unfold checkPrjShape
      rw [if_pos]
      simp only [List.any_eq_true, List.mem_filter, List.mem_map, List.mem_range, decide_eq_true_eq]
      exact ⟨3, ⟨⟨2, by simp, rfl⟩, by simpa [fromEnd] using hV⟩, hg⟩
    unfold bpChecks
    rw [this]; rfl
  have main : bpChecks ⟨[V, nA, U], [V, 1, U], [V, nA, U], [V, 1, U], if k = .astra then [V, 1, U] else [V, U], single⟩ one g = .ok () ↔
      V ≤ 1 ∨ (one = false ∧ (k = .direct ∨ (nA ≠ 1 ∧ U ≠ 1))) := by
    rw [bp_iff]
    dsimp only
    rw [check3, and_assoc]
    obtain ⟨hs, h⟩ := fp_ok h
    · cases k <;> cases one <;> dsimp only at h hs <;> subst h
      · have hl := fun hU => last_squeeze [V, nA] U hU
        simp only [List.cons_append, List.nil_append] at hl
        constructor
        · rintro ⟨_, h3, _⟩
          by_cases hV : 1 < V
          · right
            refine ⟨rfl, .inr ?_⟩
            have := fromEnd_len (h3 hV)
            by_contra hc
            by_cases h1 : nA = 1
            · subst h1
              rw [List.filter_cons_of_pos (by simp; omega), List.filter_cons_of_neg (by simp)] at this
              have := (List.length_filter_le (fun x : ℕ => decide (x ≠ 1)) [U])
              simp only [List.length_cons, List.length_nil] at *
              omega
            · have hU : U = 1 := by by_contra h; exact hc ⟨h1, h⟩
              subst hU
              rw [List.filter_cons_of_pos (by simp; omega), List.filter_cons_of_pos (by simpa using h1), List.filter_cons_of_neg (by simp)] at this
              simp at this
          · left; omega
        · intro hc
          refine ⟨hl, fun hV => ?_, by simp, by rw [prod_squeeze]; simp⟩
          rcases hc with hc | ⟨_, hc | ⟨h1, h2⟩⟩
          · omega
          · cases hc
          · rw [List.filter_cons_of_pos (by simp; omega), List.filter_cons_of_pos (by simpa using h1), List.filter_cons_of_pos (by simpa using h2)]
            simp [fromEnd]
      · have hl := fun hU => last_squeeze [V, 1] U hU
        simp only [List.cons_append, List.nil_append] at hl
        constructor
        · rintro ⟨_, h3, _⟩
          left
          by_contra hV
          have := fromEnd_len (h3 (by omega))
          rw [List.filter_cons_of_pos (by simp; omega), List.filter_cons_of_neg (by simp)] at this
          have := (List.length_filter_le (fun x : ℕ => decide (x ≠ 1)) [U])
          simp only [List.length_cons, List.length_nil] at *
          omega
        · intro hc
          refine ⟨hl, fun hV => ?_, hs, by rw [prod_squeeze]; simp⟩
          rcases hc with hc | ⟨hc, _⟩
          · omega
          · cases hc
      · simp [fromEnd]
      · constructor
        · rintro ⟨_, h3, _⟩
          left
          by_contra hV
          have := fromEnd_len (h3 (by omega))
          simp at this
        · intro hc
          refine ⟨fun _ => by simp [fromEnd], fun hV => ?_, hs, by simp⟩
          rcases hc with hc | ⟨hc, _⟩
          · omega
          · cases hc
  refine ⟨main, ?_⟩
  by_cases hm : V ≤ 1 ∨ (one = false ∧ (k = .direct ∨ (nA ≠ 1 ∧ U ≠ 1)))
  · exact .inl (main.2 hm)
  · right
    push Not at hm
    obtain ⟨hV, hm⟩ := hm
    refine key _ rfl ?_ hV
    obtain ⟨hs, h⟩ := fp_ok h
    · cases k <;> cases one <;> dsimp only at h hs <;> subst h
      · have := hm rfl
        by_cases h1 : nA = 1
        · subst h1
          rw [List.filter_cons_of_pos (by simp; omega), List.filter_cons_of_neg (by simp)]
          have := (List.length_filter_le (fun x : ℕ => decide (x ≠ 1)) [U])
          simp only [List.length_cons, List.length_nil] at *
          omega
        · have hU := this.2 h1
          subst hU
          rw [List.filter_cons_of_pos (by simp; omega), List.filter_cons_of_pos (by simpa using h1), List.filter_cons_of_neg (by simp)]
          simp
      · rw [List.filter_cons_of_pos (by simp; omega), List.filter_cons_of_neg (by simp)]
        have := (List.length_filter_le (fun x : ℕ => decide (x ≠ 1)) [U])
        simp only [List.length_cons, List.length_nil] at *
        omega
      · exact absurd rfl (hm rfl).1
      · simp

/-- C238 is false: back-projecting a single projection of a 3D volume, as SART and the attenuation corrections do, raises `IndexError` with
both backends; so does `bp` of what `fp` of the ASTRA backend returns for one angle. -/
theorem C238_violated :
    (∀ k, fpShape k (shapes k [10, 10, 5] 1 36 none true) true = .ok [5, 10] ∧
      bpChecks (shapes k [10, 10, 5] 1 36 none true) true [5, 10] = .error "IndexError") ∧
    (fpShape .astra (shapes .astra [10, 10, 5] 1 1 none false) false = .ok [5, 10] ∧
      bpChecks (shapes .astra [10, 10, 5] 1 1 none false) false [5, 10] = .error "IndexError") := by
  have h0 : ∀ k, fpShape k (shapes k [10, 10, 5] 1 36 none true) true = .ok [5, 10] := by
    intro k
    have := shapes3 k 10 10 5 (by norm_num) 1 36 none true
    simp only [Option.map_none] at this
    rw [this]
    cases k <;> simp [fpShape, detector3]
  have h1 : fpShape .astra (shapes .astra [10, 10, 5] 1 1 none false) false = .ok [5, 10] := by
    have := shapes3 .astra 10 10 5 (by norm_num) 1 1 none false
    simp only [Option.map_none] at this
    rw [this]
    simp [fpShape, detector3]
  refine ⟨fun k => ⟨h0 k, ?_⟩, h1, ?_⟩
  · have := C238_three_dimensional_partial k 10 10 5 (by norm_num) 1 36 none true true [5, 10] (h0 k)
    rcases this.2 with h | h
    · have := this.1.1 h
      simp [detector3] at this
    · exact h
  · have := C238_three_dimensional_partial .astra 10 10 5 (by norm_num) 1 1 none false false [5, 10] h1
    rcases this.2 with h | h
    · have := this.1.1 h
      simp [detector3] at this
    · exact h

/-! ## C239 -/

/-- C239: the direct backend never changes the geometry it is given; the ASTRA backend does not if the geometry has a detector shape. -/
theorem C239_geometry_unchanged_partial (k : Kind) (xyz : List ℕ) (vox : ℝ) (nA : ℕ) (det : Option (List ℕ))
    (h : k = .direct ∨ det.isSome) : detShapeAfter k xyz vox nA det = det := by
  rcases h with rfl | h
  · cases det <;> rfl
  · cases det with
    | none => cases h
    | some d => cases k <;> rfl

/-- C239: with the ASTRA backend and a geometry without detector shape, the detector of the first 3D volume stays in the geometry: a second
projector created with the same geometry for another volume gets the detector of the first. -/
theorem C239_stale_detector_partial (nx ny nz nx' ny' nz' : ℕ) (hz : 1 < nz) (hz' : 1 < nz') (vox vox' : ℝ) (nA nA' : ℕ) (single : Bool) :
    (shapes .astra [nx', ny', nz'] vox' nA' (detShapeAfter .astra [nx, ny, nz] vox nA none) single).vwu =
      [⌊(nz : ℝ) * vox⌋₊, nA', ⌊(ny : ℝ) * vox⌋₊] := by
  simp [shapes, detShapeAfter, shape3, is3D, withAngles, fromEnd, hz, hz']

/-- C239 is false: after a projector for a volume of 5 slices of 10×10 voxels, the same geometry used for a volume of 8 slices of 20×20
gives a projector that expects 5 × 10 pixels; with a fresh geometry it expects 8 × 20. -/
theorem C239_violated :
    detShapeAfter .astra [10, 10, 5] 1 36 none = some [5, 10] ∧
    (shapes .astra [20, 20, 8] 1 36 (detShapeAfter .astra [10, 10, 5] 1 36 none) false).vwu = [5, 36, 10] ∧
    (shapes .astra [20, 20, 8] 1 36 none false).vwu = [8, 36, 20] := by
  refine ⟨by simp [detShapeAfter, shape3, is3D, fromEnd], ?_, by simp [shapes, shape3]⟩
  rw [C239_stale_detector_partial 10 10 5 20 20 8 (by norm_num) (by norm_num)]
  simp

/-! ## C240 -/

/-- C240 (3D volumes): projections that `bp` takes have the right number of values, and along the columns and the rows (the last axis and
the third from the end) they have the shape of the detector, if it is larger than one. -/
theorem C240_accepted_shapes_partial (k : Kind) (nx ny nz : ℕ) (hz : 1 < nz) (vox : ℝ) (nA : ℕ) (det : Option (ℕ × ℕ)) (single one : Bool)
    (g : List ℕ) :
    bpChecks (shapes k [nx, ny, nz] vox nA (det.map fun d => [d.1, d.2]) single) one g = .ok () ↔
      (1 < (detector3 ny nz vox det).2 → fromEnd g 1 = some (detector3 ny nz vox det).2) ∧
      (1 < (detector3 ny nz vox det).1 → fromEnd g 3 = some (detector3 ny nz vox det).1) ∧
      (one = true → single = true) ∧
      g.prod = (detector3 ny nz vox det).1 * ((if one then 1 else nA) * (detector3 ny nz vox det).2) := by
  rw [shapes3 _ _ _ _ hz, bp_iff]
  dsimp only
  rw [check3]
  cases one <;> simp [and_assoc]

/-- C240 (3D volumes, all angles, at least two rows and columns): an array with three axes is only taken if it has the shape `(V, W, U)`. -/
theorem C240_three_axes_partial (k : Kind) (nx ny nz : ℕ) (hz : 1 < nz) (vox : ℝ) (nA : ℕ) (det : Option (ℕ × ℕ)) (single : Bool)
    (hV : 1 < (detector3 ny nz vox det).1) (hU : 1 < (detector3 ny nz vox det).2) (a b c : ℕ)
    (h : bpChecks (shapes k [nx, ny, nz] vox nA (det.map fun d => [d.1, d.2]) single) false [a, b, c] = .ok ()) :
    a = (detector3 ny nz vox det).1 ∧ b = nA ∧ c = (detector3 ny nz vox det).2 := by
  rw [C240_accepted_shapes_partial k nx ny nz hz] at h
  obtain ⟨h1, h2, -, h3⟩ := h
  have hc : c = (detector3 ny nz vox det).2 := by simpa [fromEnd] using h1 hU
  have ha : a = (detector3 ny nz vox det).1 := by simpa [fromEnd] using h2 hV
  refine ⟨ha, ?_, hc⟩
  rw [← ha, ← hc] at h3
  simp only [List.prod_cons, List.prod_nil, mul_one, Bool.false_eq_true, if_false] at h3
  have ha0 : 0 < a := by omega
  have hc0 : 0 < c := by omega
  exact Nat.eq_of_mul_eq_mul_right hc0 (Nat.eq_of_mul_eq_mul_left ha0 h3)

/-- C240 (2D volumes): the same, for the number of values and the last axis. -/
theorem C240_accepted_shapes_2d_partial (k : Kind) (nx ny : ℕ) (vox : ℝ) (nA : ℕ) (det : Option ℕ) (single one : Bool) (g : List ℕ) :
    bpChecks (shapes k [nx, ny] vox nA (det.map fun d => [d]) single) one g = .ok () ↔
      (1 < detector2 ny vox det → fromEnd g 1 = some (detector2 ny vox det)) ∧
      (one = true → single = true) ∧ g.prod = (if one then 1 else nA) * detector2 ny vox det := by
  rw [shapes2, bp_iff]
  dsimp only
  rw [check2]
  cases one <;> cases k <;> simp

/-- C240 is false: a projector for a 2D volume and 36 angles takes a stack of two sinograms with 18 angles each; one for a detector with
a single column takes the transposed sinogram, and one for a 3D volume takes an array with a fourth axis, angles split in two. -/
theorem C240_violated :
    (∀ k, bpChecks (shapes k [10, 10] 1 36 none false) false [2, 18, 10] = .ok ()) ∧
    (∀ k, bpChecks (shapes k [10, 10] 1 36 (some [1]) false) false [1, 36] = .ok ()) ∧
    (∀ k, bpChecks (shapes k [10, 10, 5] 1 36 none false) false [2, 5, 18, 10] = .ok ()) := by
  refine ⟨fun k => ?_, fun k => ?_, fun k => ?_⟩
  · refine (C240_accepted_shapes_2d_partial k 10 10 1 36 none false false _).2 ?_
    simp [detector2, fromEnd]
  · refine (C240_accepted_shapes_2d_partial k 10 10 1 36 (some 1) false false _).2 ?_
    simp [detector2]
  · refine (C240_accepted_shapes_partial k 10 10 5 (by norm_num) 1 36 none false false _).2 ?_
    simp [detector3, fromEnd]

/-! ## C241 -/

/-- C241: for an index from zero, data and projector are those of that angle; indices from the number of angles on are refused by the ASTRA
backend. -/
theorem C241_index_partial (nA i : ℕ) :
    (i < nA → selected nA i = some (i, .one i) ∧ selectedDirect nA i = some (.one i)) ∧
    (nA ≤ i → selected nA i = none) := by
  constructor
  · intro h
    have h1 : (projIds nA)[i]? = some (Proj.one i) := by
      unfold projIds
      rw [List.getElem?_append_left (by simpa using h)]
      simp [h]
    simp [selected, selectedDirect, pyGet, h, h1]
  · intro h
    simp [selected, pyGet, h]

/-- C241: what happens with negative indices, `-1 - j` for `j < nA`: the data are those of the angle counted from the end, but the projector is
the one of the *next* angle, and the one of all angles for the index -1. -/
theorem C241_negative_partial (nA j : ℕ) (h : j < nA) :
    selected nA (-1 - j) = some (nA - 1 - j, if j = 0 then .all else .one (nA - j)) ∧
    selectedDirect nA (-1 - j) = some (if j = 0 then .all else .one (nA - j)) := by
  have hlen : (projIds nA).length = nA + 1 := by simp [projIds]
  have e1 : pyGet (List.range nA) (-1 - (j : ℤ)) = some (nA - 1 - j) := by
    unfold pyGet
    rw [if_neg (by omega), if_pos (by simp; omega)]
    have : (((List.range nA).length : ℤ) + (-1 - (j : ℤ))).toNat = nA - 1 - j := by simp only [List.length_range]; omega
    rw [this, List.getElem?_range (by omega)]
  have e2 : pyGet (projIds nA) (-1 - (j : ℤ)) = some (if j = 0 then .all else .one (nA - j)) := by
    unfold pyGet
    rw [if_neg (by omega), if_pos (by rw [hlen]; omega)]
    have : (((projIds nA).length : ℤ) + (-1 - (j : ℤ))).toNat = nA - j := by rw [hlen]; push_cast; omega
    rw [this]
    unfold projIds
    by_cases hj : j = 0
    · subst hj; simp
    · rw [List.getElem?_append_left (by simp; omega), if_neg hj, List.getElem?_map, List.getElem?_range (by omega)]
      rfl
  exact ⟨by simp [selected, e1, e2], by simpa [selectedDirect] using e2⟩

/-- C241 is false: for the last angle given as `-1`, the ASTRA backend combines the data of the last angle with the projector of all angles, for
`-2` the data of one angle with the projector of another. -/
theorem C241_violated :
    selected 36 (-1) = some (35, .all) ∧ selected 36 (-2) = some (34, .one 35) ∧ selectedDirect 36 (-1) = some .all ∧
    selectedDirect 36 36 = some .all := by
  decide

/-! ## C242 -/

open V3

/-- Specification (geometry of ASTRA): the ray through the point `p` meets the detector plane at the pixel coordinates `(iu, iv)`, counted from the
centre of the detector. Parallel beams: along the beam direction; cone beams: along the line from the source. -/
def Hits (cone : Bool) (w : Vec) (p : V3) (iu iv : ℝ) : Prop :=
  ∃ t : ℝ, (if cone then w.src + V3.smul t (p - w.src) else p + V3.smul t w.src) = w.det + V3.smul iu w.u + V3.smul iv w.v

/-- Specification: the rotated geometry for one angle, in units of the detector pixels that the user gave. -/
noncomputable def geometryAt (g : PrjGeom) (src det u v : V3) (angle : ℝ) : Vec :=
  ⟨V3.smul (1 / g.pix2vox) (rotVec (V3.smul angle g.rotDir) src), V3.smul (1 / g.pix2vox) (rotVec (V3.smul angle g.rotDir) det),
    V3.smul (1 / g.pix2vox) (rotVec (V3.smul angle g.rotDir) u), V3.smul (1 / g.pix2vox) (rotVec (V3.smul angle g.rotDir) v)⟩

private theorem vectors_row (k : Kind) (g : PrjGeom) (src det u v : V3) (hs : g.srcPos = [src]) (hd : g.detPos = [det]) (hu : g.detU = [u])
    (hv : g.detV = [v]) (vox : ℝ) (angles : List ℝ) (a : ℕ) (ha : a < angles.length) :
    (vectors k g vox angles)[a]? = some (match k with
      | .direct => geometryAt g src det u v angles[a]
      | .astra => ⟨V3.smul (1 / vox) (geometryAt g src det u v angles[a]).src, V3.smul (1 / vox) (geometryAt g src det u v angles[a]).det,
          V3.smul (1 / vox) (geometryAt g src det u v angles[a]).u, V3.smul (1 / vox) (geometryAt g src det u v angles[a]).v⟩) := by
  have e : ∀ x : V3, (applyRotations (angles.map fun a => V3.smul a g.rotDir) [x]).getD a 0 = rotVec (V3.smul angles[a] g.rotDir) x := by
    intro x
    simp [applyRotations, ha]
  unfold vectors
  simp only [PrjGeom.rotate, hs, hd, hu, hv]
  cases k <;> simp [ha, e, geometryAt] <;> simp [applyRotations, ha]

private theorem smul_ext (c : ℝ) (hc : c ≠ 0) (p q : V3) : V3.smul c p = V3.smul c q ↔ p = q := by
  constructor
  · intro h
    have hx := congrArg V3.x h
    have hy := congrArg V3.y h
    have hz := congrArg V3.z h
    simp only [V3.smul] at hx hy hz
    ext
    · exact mul_left_cancel₀ hc hx
    · exact mul_left_cancel₀ hc hy
    · exact mul_left_cancel₀ hc hz
  · rintro rfl; rfl

private theorem add_def (p q : V3) : p + q = ⟨p.x + q.x, p.y + q.y, p.z + q.z⟩ := rfl
private theorem sub_def (p q : V3) : p - q = ⟨p.x - q.x, p.y - q.y, p.z - q.z⟩ := rfl

private theorem hits_scaled (cone : Bool) (w : Vec) (c : ℝ) (hc : 0 < c) (p : V3) (iu iv : ℝ) :
    Hits cone ⟨V3.smul (1 / c) w.src, V3.smul (1 / c) w.det, V3.smul (1 / c) w.u, V3.smul (1 / c) w.v⟩ p iu iv ↔
      Hits cone w (V3.smul c p) iu iv := by
  have hc' := hc.ne'
  unfold Hits
  refine exists_congr fun t => ?_
  rw [← smul_ext c hc']
  refine iff_of_eq ?_
  congr 1
  · cases cone <;> simp only [Bool.false_eq_true, if_false, if_true, add_def, sub_def, V3.smul, V3.mk.injEq] <;>
      refine ⟨?_, ?_, ?_⟩ <;> field_simp
  · simp only [add_def, V3.smul, V3.mk.injEq]
    refine ⟨?_, ?_, ?_⟩ <;> field_simp

/-- C242, direct backend: for every 3D geometry with one row per array, all angles and voxel sizes, the rays that reach the pixels are those of the
geometry that was given. -/
theorem C242_direct_partial (cone : Bool) (g : PrjGeom) (src det u v : V3) (hs : g.srcPos = [src]) (hd : g.detPos = [det]) (hu : g.detU = [u])
    (hv : g.detV = [v]) (vox : ℝ) (angles : List ℝ) (a : ℕ) (ha : a < angles.length) (w : Vec)
    (hw : (vectors .direct g vox angles)[a]? = some w) (p : V3) (iu iv : ℝ) :
    Hits cone w p iu iv ↔ Hits cone (geometryAt g src det u v angles[a]) p iu iv := by
  rw [vectors_row .direct g src det u v hs hd hu hv vox angles a ha] at hw
  cases hw
  rfl

/-- C242, ASTRA backend: a point of the volume is projected where the geometry that was given would project the point *multiplied by the voxel size*;
so the projections are those of the geometry if the voxel size is one. -/
theorem C242_astra_partial (cone : Bool) (g : PrjGeom) (src det u v : V3) (hs : g.srcPos = [src]) (hd : g.detPos = [det]) (hu : g.detU = [u])
    (hv : g.detV = [v]) (vox : ℝ) (hvox : 0 < vox) (angles : List ℝ) (a : ℕ) (ha : a < angles.length) (w : Vec)
    (hw : (vectors .astra g vox angles)[a]? = some w) (p : V3) (iu iv : ℝ) :
    Hits cone w p iu iv ↔ Hits cone (geometryAt g src det u v angles[a]) (V3.smul vox p) iu iv := by
  rw [vectors_row .astra g src det u v hs hd hu hv vox angles a ha] at hw
  cases hw
  exact hits_scaled cone _ vox hvox p iu iv

private theorem smul_one (p : V3) : V3.smul 1 p = p := by
  unfold V3.smul; ext <;> simp

/-- C242: with voxels of the size of a pixel, both backends project along the geometry that was given. -/
theorem C242_unit_voxels_partial (k : Kind) (cone : Bool) (g : PrjGeom) (src det u v : V3) (hs : g.srcPos = [src]) (hd : g.detPos = [det])
    (hu : g.detU = [u]) (hv : g.detV = [v]) (angles : List ℝ) (a : ℕ) (ha : a < angles.length) (w : Vec)
    (hw : (vectors k g 1 angles)[a]? = some w) (p : V3) (iu iv : ℝ) :
    Hits cone w p iu iv ↔ Hits cone (geometryAt g src det u v angles[a]) p iu iv := by
  cases k
  · rw [C242_astra_partial cone g src det u v hs hd hu hv 1 one_pos angles a ha w hw, smul_one]
  · exact C242_direct_partial cone g src det u v hs hd hu hv 1 angles a ha w hw p iu iv

/-- The position of a voxel: the volume is centred, and voxels have the size `vox` in units of pixels. -/
theorem C242_voxel_positions_partial (vox : ℝ) (n i : ℕ) (hn : 0 < n) : voxelCentre vox n i = (i + 1 / 2 - n / 2) * vox := by
  have : (n : ℝ) ≠ 0 := by exact_mod_cast hn.ne'
  simp only [voxelCentre, volExtent, List.flatMap_cons, List.flatMap_nil, List.append_nil, List.getD_cons_zero, List.getD_cons_succ]
  field_simp
  ring

private theorem rot_zero (d v : V3) : rotVec (V3.smul 0 d) v = v := by
  have : V3.norm (V3.smul 0 d) = 0 := by simp [V3.norm, V3.dot, V3.smul]
  simp [rotVec, this]

/-- C242 is false: the default parallel geometry at the angle zero, and a volume of eight voxels of half a pixel in each direction, so that the
detector has four columns, -2 … 2. The border of the volume, at 2 pixels from the axis, is projected on the border of the detector by the direct
backend, but at one pixel from its centre by the ASTRA backend: the sample covers half of the detector. -/
theorem C242_violated :
    prjShape [8, 8, 8] (1 / 2) 1 = [4, 1, 4] ∧
    (∃ w, (vectors .direct (prjGeomParallel true) (1 / 2) [0])[0]? = some w ∧
      ∀ y z iu iv, Hits false w ⟨(8 : ℝ) * (1 / 2) / 2, y, z⟩ iu iv → iu = 2) ∧
    (∃ w, (vectors .astra (prjGeomParallel true) (1 / 2) [0])[0]? = some w ∧
      (∀ y z iu iv, Hits false w ⟨(8 : ℝ) * (1 / 2) / 2, y, z⟩ iu iv → iu = 1) ∧
      Hits false w ⟨(8 : ℝ) * (1 / 2) / 2, 0, 0⟩ 1 0) := by
  have geom : ∀ x y z iu iv, Hits false (geometryAt (prjGeomParallel true) ⟨0, -1, 0⟩ 0 ⟨1, 0, 0⟩ ⟨0, 0, 1⟩ 0) ⟨x, y, z⟩ iu iv ↔ iu = x ∧ iv = z := by
    intro x y z iu iv
    have hz : (0 : V3) = ⟨0, 0, 0⟩ := rfl
    unfold Hits geometryAt
    rw [rot_zero, rot_zero, rot_zero, rot_zero, hz]
    simp only [prjGeomParallel, Bool.false_eq_true, if_false, add_def, V3.smul, V3.mk.injEq]
    constructor
    · rintro ⟨t, h1, -, h3⟩
      exact ⟨by linarith, by linarith⟩
    · rintro ⟨rfl, rfl⟩
      exact ⟨y, by ring, by ring, by ring⟩
  refine ⟨?_, ⟨_, vectors_row .direct (prjGeomParallel true) ⟨0, -1, 0⟩ 0 ⟨1, 0, 0⟩ ⟨0, 0, 1⟩ rfl rfl rfl rfl (1 / 2) [0] 0 (by simp), ?_⟩,
    ⟨_, vectors_row .astra (prjGeomParallel true) ⟨0, -1, 0⟩ 0 ⟨1, 0, 0⟩ ⟨0, 0, 1⟩ rfl rfl rfl rfl (1 / 2) [0] 0 (by simp), ?_, ?_⟩⟩
  · rw [shape3]
    have : ⌊((8 : ℕ) : ℝ) * (1 / 2)⌋₊ = 4 := by
      have : ((8 : ℕ) : ℝ) * (1 / 2) = ((4 : ℕ) : ℝ) := by norm_num
      rw [this, Nat.floor_natCast]
    rw [this]
  · intro y z iu iv h
    rw [((geom _ _ _ _ _).1 h).1]; norm_num
  · intro y z iu iv h
    have h := (hits_scaled false _ (1 / 2) (by norm_num) _ iu iv).1 h
    have := ((geom _ _ _ _ _).1 h).1
    rw [this]; norm_num
  · refine (hits_scaled false _ (1 / 2) (by norm_num) _ 1 0).2 ?_
    refine (geom _ _ _ _ _).2 ⟨by norm_num, by norm_num⟩

end Verif
