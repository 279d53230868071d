import Verif.Model.GeometrySetters

/-!
# C248: detector shifts; C249: source shifts
-/

namespace Verif
open V3

private theorem addx (a b : V3) : (a + b).x = a.x + b.x := rfl
private theorem addy (a b : V3) : (a + b).y = a.y + b.y := rfl
private theorem addz (a b : V3) : (a + b).z = a.z + b.z := rfl
private theorem smulx (c : ℝ) (a : V3) : (smul c a).x = c * a.x := rfl
private theorem smuly (c : ℝ) (a : V3) : (smul c a).y = c * a.y := rfl
private theorem smulz (c : ℝ) (a : V3) : (smul c a).z = c * a.z := rfl
private theorem zx : (0 : V3).x = 0 := rfl
private theorem zy : (0 : V3).y = 0 := rfl
private theorem zz : (0 : V3).z = 0 := rfl

/-- The entry for angle `i` of an attribute: the only one, or its own. -/
def entryFor {α : Type} (l : List α) (i : ℕ) (a : α) : Prop := l = [a] ∨ l[i]? = some a ∧ l.length ≠ 1

private theorem bRow_entry {α : Type} [Inhabited α] {l : List α} {n : ℕ} (h : broadcasts l.length n = true) {i : ℕ} (hi : i < n) : entryFor l i (bRow l i) := by
  unfold broadcasts at h
  simp only [Bool.or_eq_true, beq_iff_eq] at h
  unfold bRow entryFor
  by_cases h1 : l.length = 1
  · obtain ⟨a, rfl⟩ := List.length_eq_one_iff.1 h1
    simp
  · rw [if_neg h1]
    refine Or.inr ⟨?_, h1⟩
    have hl : i < l.length := by rcases h with h | h; exact absurd h h1; omega
    rw [List.getElem?_eq_getElem hl, List.getD_eq_getElem?_getD, List.getElem?_eq_getElem hl]
    rfl

private theorem entry_unique {α : Type} {l : List α} {i : ℕ} {a b : α} (h : entryFor l i a) (h' : entryFor l i b) : a = b := by
  rcases h with rfl | ⟨h, h1⟩ <;> rcases h' with h' | ⟨h', h2⟩
  · simpa using h'
  · simp at h2
  · rw [h'] at h1; simp at h1
  · rw [h] at h'; simpa using h'

/-- C248: when the call returns, the new detector position of every angle is, whatever the old one was, its shift (plus the position of the rotation
axis) along its U direction, plus in 3D the vertical shift (if given) along its V direction, plus its distance along Y; nothing else changes. -/
theorem C248_position_partial (g : PrjGeom) (s : ShiftsVu) (cor : Option ℝ) (dist : List ℝ) (dn : ℕ) (h : (setDetectorShiftsVu g s cor dist dn).1 = true) :
    ((setDetectorShiftsVu g s cor dist dn).2.detPos.length = s.n) ∧
    (∀ i < s.n, ∀ u v : V3, ∀ d, entryFor g.detU i u → entryFor g.detV i v → entryFor dist i d →
      (setDetectorShiftsVu g s cor dist dn).2.detPos[i]? = some (smul (s.val (s.k - 1) i + cor.getD 0) u +
        (if g.geomType.ndim = 3 ∧ s.k = 2 then smul (s.val 0 i) v else 0) + ⟨0, d, 0⟩)) ∧
    { (setDetectorShiftsVu g s cor dist dn).2 with detPos := g.detPos } = g := by
  unfold setDetectorShiftsVu at h ⊢
  dsimp only at h ⊢
  by_cases c1 : 1 < dist.length ∧ (1 < dn ∨ (1 < s.n ∧ dist.length ≠ s.n))
  · rw [if_pos c1] at h; cases h
  rw [if_neg c1] at h ⊢
  by_cases c2 : 1 < g.detPos.length ∧ 1 < s.n ∧ g.detPos.length ≠ s.n
  · rw [if_pos c2] at h; cases h
  rw [if_neg c2] at h ⊢
  by_cases c3 : broadcasts g.detU.length s.n = false
  · rw [if_pos c3] at h; cases h
  rw [if_neg c3] at h ⊢
  by_cases c4 : (g.geomType.ndim = 3 ∧ s.k = 2) ∧ broadcasts g.detV.length s.n = false
  · rw [if_pos c4] at h; cases h
  rw [if_neg c4] at h ⊢
  by_cases c5 : broadcasts dist.length s.n = false
  · rw [if_pos c5] at h; cases h
  rw [if_neg c5]
  dsimp only
  refine ⟨?_, ?_, rfl⟩
  · split_ifs <;> simp [addScaled]
  · intro i hi u v d hu hv hd
    have eu : bRow g.detU i = u := entry_unique (bRow_entry (by simpa using c3) hi) hu
    have ed : bRow dist i = d := entry_unique (bRow_entry (by simpa using c5) hi) hd
    by_cases c6 : g.geomType.ndim = 3 ∧ s.k = 2
    · have ev : bRow g.detV i = v := entry_unique (bRow_entry (by
        by_contra hn; exact c4 ⟨c6, by simpa using hn⟩) hi) hv
      rw [if_pos c6, if_pos c6]
      have k2 : s.k - 2 = 0 := by omega
      simp only [addScaled, List.getElem?_mapIdx, List.getElem?_replicate, if_pos hi, Option.map_some, eu, ev, ed, ShiftsVu.u, ShiftsVu.v, k2]
      congr 1
      ext <;> simp [addx, addy, addz, smulx, smuly, smulz, zx, zy, zz]
    · rw [if_neg c6, if_neg c6]
      simp only [addScaled, List.getElem?_mapIdx, List.getElem?_replicate, if_pos hi, Option.map_some, eu, ed, ShiftsVu.u]
      congr 1
      ext <;> simp [addx, addy, addz, smulx, smuly, smulz, zx, zy, zz]

/-- C248: which calls return: the directions (U, and V if it is used) and the distances have one entry or one per shift, the distances given for
several angles are one-dimensional, and the numbers of old and new positions are equal if both are larger than one. -/
theorem C248_accepted (g : PrjGeom) (s : ShiftsVu) (cor : Option ℝ) (dist : List ℝ) (dn : ℕ) (hd : dn ≤ 1) :
    (setDetectorShiftsVu g s cor dist dn).1 = true ↔
      (dist.length = 1 ∨ dist.length = s.n) ∧ (g.detU.length = 1 ∨ g.detU.length = s.n) ∧
      (g.geomType.ndim = 3 ∧ s.k = 2 → g.detV.length = 1 ∨ g.detV.length = s.n) ∧ ¬ (1 < g.detPos.length ∧ 1 < s.n ∧ g.detPos.length ≠ s.n) := by
  have hb : ∀ a n, broadcasts a n = false ↔ ¬ (a = 1 ∨ a = n) := by intro a n; unfold broadcasts; simp
  unfold setDetectorShiftsVu
  dsimp only
  by_cases c1 : 1 < dist.length ∧ (1 < dn ∨ (1 < s.n ∧ dist.length ≠ s.n))
  · rw [if_pos c1]
    refine ⟨fun h => (by cases h), fun ⟨h1, _⟩ => ?_⟩
    omega
  rw [if_neg c1]
  by_cases c2 : 1 < g.detPos.length ∧ 1 < s.n ∧ g.detPos.length ≠ s.n
  · rw [if_pos c2]
    exact ⟨fun h => (by cases h), fun ⟨_, _, _, h⟩ => absurd c2 h⟩
  rw [if_neg c2]
  by_cases c3 : broadcasts g.detU.length s.n = false
  · rw [if_pos c3]
    exact ⟨fun h => (by cases h), fun ⟨_, h, _⟩ => absurd h ((hb _ _).1 c3)⟩
  rw [if_neg c3]
  by_cases c4 : (g.geomType.ndim = 3 ∧ s.k = 2) ∧ broadcasts g.detV.length s.n = false
  · rw [if_pos c4]
    exact ⟨fun h => (by cases h), fun ⟨_, _, h, _⟩ => absurd (h c4.1) ((hb _ _).1 c4.2)⟩
  rw [if_neg c4]
  by_cases c5 : broadcasts dist.length s.n = false
  · rw [if_pos c5]
    exact ⟨fun h => (by cases h), fun ⟨h, _⟩ => absurd h ((hb _ _).1 c5)⟩
  rw [if_neg c5]
  rw [hb] at c3 c5
  exact ⟨fun _ => ⟨not_not.1 c5, not_not.1 c3, fun h => (by by_contra hn; exact c4 ⟨h, (hb _ _).2 hn⟩), c2⟩, fun _ => rfl⟩

/-- C248 is violated: a call that raises can leave the detector at a wrong place. The default geometry with three directions (one per angle), a shift
for one angle: it raises, and afterwards the detector is at the origin, although it was elsewhere. -/
theorem C248_atomic_violated : ¬ ∀ (g : PrjGeom) (s : ShiftsVu) (cor : Option ℝ) (dist : List ℝ) (dn : ℕ),
    (setDetectorShiftsVu g s cor dist dn).1 = false → (setDetectorShiftsVu g s cor dist dn).2 = g := by
  intro h
  let g : PrjGeom := ⟨.parallel3d, [⟨0, -1, 0⟩], [⟨5, 0, 0⟩], [⟨1, 0, 0⟩, ⟨0, 1, 0⟩], [⟨0, 0, 1⟩], ⟨0, 0, -1⟩, 1, none⟩
  have h1 : setDetectorShiftsVu g ⟨1, 1, fun _ _ => 0⟩ none [0] 1 = (false, { g with detPos := [0] }) := by
    unfold setDetectorShiftsVu
    simp [g, broadcasts]
  have h2 := h g ⟨1, 1, fun _ _ => 0⟩ none [0] 1 (by rw [h1])
  rw [h1] at h2
  have h3 := congrArg (fun g : PrjGeom => g.detPos.map V3.x) h2
  simp [g, zx] at h3

/-- C248 is violated: a geometry with one detector position refuses two distances for one shift, although its check accepts them ("if detector positions
are more than 1"), after it has moved the detector. -/
theorem C248_distances_violated (g : PrjGeom) (hu : g.detU.length = 1) (hv : g.detV.length = 1) (hp : g.detPos.length = 1) (x d e : ℝ) :
    (setDetectorShiftsVu g ⟨1, 1, fun _ _ => x⟩ none [d, e] 1).1 = false ∧
    (setDetectorShiftsVu g ⟨1, 1, fun _ _ => x⟩ none [d] 1).1 = true ∧ (setDetectorShiftsVu g ⟨1, 2, fun _ _ => x⟩ none [d, e] 1).1 = true := by
  refine ⟨?_, ?_, ?_⟩
  · rw [← Bool.not_eq_true, C248_accepted _ _ _ _ _ (le_refl 1)]
    simp
  · rw [C248_accepted _ _ _ _ _ (le_refl 1)]
    simp [hu]
  · rw [C248_accepted _ _ _ _ _ (le_refl 1)]
    simp [hu, hp]

/-- Non-vacuity: two angles with their own directions, horizontal and vertical shifts and distances. -/
example : (setDetectorShiftsVu ⟨.parallel3d, [⟨0, -1, 0⟩], [0], [⟨1, 0, 0⟩, ⟨0, 1, 0⟩], [⟨0, 0, 1⟩], ⟨0, 0, -1⟩, 1, none⟩ ⟨2, 2, fun i j => i + j⟩ (some 3) [1, 2] 1).1 = true := by
  rw [C248_accepted _ _ _ _ _ (le_refl 1)]
  simp

/-- C249: when the call returns, the horizontal position of the source of every angle is its U shift, the vertical one is in 3D its V shift if given
(otherwise 0), and its Y coordinate is the old one; nothing else changes. -/
theorem C249_position_partial (g : PrjGeom) (s : ShiftsVu) (h : (setSourceShiftsVu g (some s)).1 = true) :
    (setSourceShiftsVu g (some s)).2.srcPos.length = s.n ∧
    (∀ i < s.n, ∀ p : V3, entryFor g.srcPos i p →
      (setSourceShiftsVu g (some s)).2.srcPos[i]? = some ⟨s.val (s.k - 1) i, p.y, if g.geomType.ndim = 3 ∧ s.k = 2 then s.val 0 i else 0⟩) ∧
    { (setSourceShiftsVu g (some s)).2 with srcPos := g.srcPos } = g := by
  unfold setSourceShiftsVu at h ⊢
  dsimp only at h ⊢
  by_cases c1 : 1 < g.srcPos.length ∧ 1 < s.n ∧ g.srcPos.length ≠ s.n
  · rw [if_pos c1] at h; cases h
  rw [if_neg c1] at h ⊢
  by_cases c2 : broadcasts (g.srcPos.map V3.y).length s.n = false
  · rw [if_pos c2] at h; cases h
  rw [if_neg c2]
  dsimp only
  refine ⟨?_, ?_, rfl⟩
  · split_ifs <;> simp
  · intro i hi p hp
    have hy : entryFor (g.srcPos.map V3.y) i p.y := by
      rcases hp with hp | ⟨hp, h1⟩
      · exact Or.inl (by rw [hp]; rfl)
      · exact Or.inr ⟨by rw [List.getElem?_map, hp]; rfl, by rw [List.length_map]; exact h1⟩
    have ey : bRow (g.srcPos.map V3.y) i = p.y := entry_unique (bRow_entry (by simpa using c2) hi) hy
    by_cases c6 : g.geomType.ndim = 3 ∧ s.k = 2
    · rw [if_pos c6, if_pos c6]
      have k2 : s.k - 2 = 0 := by omega
      simp only [List.getElem?_mapIdx, List.getElem?_map, List.getElem?_range hi, Option.map_some, ey, ShiftsVu.v, k2]
    · rw [if_neg c6, if_neg c6]
      simp only [List.getElem?_mapIdx, List.getElem?_map, List.getElem?_range hi, Option.map_some, ey]

/-- C249: which calls return: there is one source, or one per shift. -/
theorem C249_accepted (g : PrjGeom) (s : ShiftsVu) :
    (setSourceShiftsVu g (some s)).1 = true ↔ g.srcPos.length = 1 ∨ g.srcPos.length = s.n := by
  have hb : ∀ a n, broadcasts a n = false ↔ ¬ (a = 1 ∨ a = n) := by intro a n; unfold broadcasts; simp
  unfold setSourceShiftsVu
  dsimp only
  by_cases c1 : 1 < g.srcPos.length ∧ 1 < s.n ∧ g.srcPos.length ≠ s.n
  · rw [if_pos c1]
    refine ⟨fun h => (by cases h), fun h => ?_⟩
    omega
  rw [if_neg c1]
  by_cases c2 : broadcasts (g.srcPos.map V3.y).length s.n = false
  · rw [if_pos c2]
    rw [hb, List.length_map] at c2
    exact ⟨fun h => (by cases h), fun h => absurd h c2⟩
  rw [if_neg c2]
  rw [hb, List.length_map] at c2
  exact ⟨fun _ => not_not.1 c2, fun _ => rfl⟩

/-- C249: the default argument changes nothing, and of two calls that return (for the same number of angles) only the second counts. -/
theorem C249_last_counts (g : PrjGeom) (s t : ShiftsVu) (hn : s.n = t.n) (h : (setSourceShiftsVu g (some s)).1 = true) :
    setSourceShiftsVu g none = (true, g) ∧ setSourceShiftsVu (setSourceShiftsVu g (some s)).2 (some t) = setSourceShiftsVu g (some t) := by
  refine ⟨rfl, ?_⟩
  obtain ⟨hl, hp, hr⟩ := C249_position_partial g s h
  have ha := (C249_accepted g s).1 h
  set g' := (setSourceShiftsVu g (some s)).2 with hg'
  have h1 : (setSourceShiftsVu g (some t)).1 = true := (C249_accepted g t).2 (by rw [← hn]; exact ha)
  have h2 : (setSourceShiftsVu g' (some t)).1 = true := (C249_accepted g' t).2 (Or.inr (by rw [hl, hn]))
  obtain ⟨l1, p1, r1⟩ := C249_position_partial g t h1
  obtain ⟨l2, p2, r2⟩ := C249_position_partial g' t h2
  have hgt : g'.geomType = g.geomType := by have := congrArg PrjGeom.geomType hr; exact this
  have hsrc : (setSourceShiftsVu g' (some t)).2.srcPos = (setSourceShiftsVu g (some t)).2.srcPos := by
    refine List.ext_getElem? fun i => ?_
    by_cases hi : i < t.n
    · have hi' : i < s.n := by omega
      obtain ⟨p, hpe⟩ : ∃ p, entryFor g.srcPos i p := by
        rcases ha with h0 | h0
        · obtain ⟨a, e⟩ := List.length_eq_one_iff.1 h0; exact ⟨a, Or.inl e⟩
        · by_cases h01 : g.srcPos.length = 1
          · obtain ⟨a, e⟩ := List.length_eq_one_iff.1 h01; exact ⟨a, Or.inl e⟩
          · exact ⟨g.srcPos[i], Or.inr ⟨List.getElem?_eq_getElem (by omega), h01⟩⟩
      have hq := hp i hi' p hpe
      have hqe : entryFor g'.srcPos i ⟨s.val (s.k - 1) i, p.y, if g.geomType.ndim = 3 ∧ s.k = 2 then s.val 0 i else 0⟩ := by
        by_cases h01 : g'.srcPos.length = 1
        · obtain ⟨a, e⟩ := List.length_eq_one_iff.1 h01
          left
          rw [e] at hq ⊢
          have : i = 0 := by rw [e] at hl; simp at hl; omega
          rw [this] at hq ⊢
          simpa using hq
        · exact Or.inr ⟨hq, h01⟩
      rw [p1 i hi p hpe, p2 i hi _ hqe, hgt]
    · rw [List.getElem?_eq_none (by omega), List.getElem?_eq_none (by omega)]
  have key : ∀ a b : Bool × PrjGeom, a.1 = b.1 → a.2.srcPos = b.2.srcPos → { a.2 with srcPos := ([] : List V3) } = { b.2 with srcPos := [] } → a = b := by
    rintro ⟨a, ⟨⟩⟩ ⟨b, ⟨⟩⟩ e1 e2 e3
    simp_all
  refine key _ _ (by rw [h1, h2]) hsrc ?_
  have e1 := congrArg (fun g : PrjGeom => { g with srcPos := ([] : List V3) }) r1
  have e2 := congrArg (fun g : PrjGeom => { g with srcPos := ([] : List V3) }) r2
  have e3 := congrArg (fun g : PrjGeom => { g with srcPos := ([] : List V3) }) hr
  dsimp only at e1 e2 e3
  rw [e2, e1]
  exact e3

/-- C249 is violated: a geometry with a source for each of two angles does not accept one shift for all of them (a geometry with one source does), and
the failed call moves the source to the origin's Y coordinate. -/
theorem C249_one_shift_violated (x : ℝ) : ∃ g : PrjGeom, (∀ p ∈ g.srcPos, p.y = -1) ∧ (setSourceShiftsVu g (some ⟨1, 1, fun _ _ => x⟩)).1 = false ∧
    (setSourceShiftsVu g (some ⟨1, 1, fun _ _ => x⟩)).2.srcPos = [⟨x, 0, 0⟩] ∧ (setSourceShiftsVu (g.getItem 0) (some ⟨1, 1, fun _ _ => x⟩)).1 = true := by
  refine ⟨⟨.cone, [⟨0, -1, 0⟩, ⟨0, -1, 0⟩], [0], [⟨1, 0, 0⟩], [⟨0, 0, 1⟩], ⟨0, 0, -1⟩, 1, none⟩, by simp, ?_, ?_, ?_⟩
  · unfold setSourceShiftsVu; simp [broadcasts]
  · unfold setSourceShiftsVu; simp [broadcasts]
  · rw [C249_accepted]; simp [PrjGeom.getItem, sliceRows]

end Verif
