import Verif.Model.Inits

/-!
# Constructors

C219: detectors and shapes of attenuation volumes. C220: the set-up of detector shifts.
-/

namespace Verif

/-! ## C219 -/

/-- The detector that a position stands for: that itself, or one without surface at this angle. -/
def IsDetectorAt : DetArg → DetectorXrf → Prop
  | .det d, d' => d' = d
  | .float x, d' => d'.angle = x ∧ d'.surface = 0
  | .npOther x, d' => d'.angle = x ∧ d'.surface = 0
  | .int z, d' => d'.angle = z ∧ d'.surface = 0

/-- The position is a `DetectorXRF` or a `float`. -/
def DetArg.plain : DetArg → Prop
  | .det _ => True
  | .float _ => True
  | _ => False

theorem mapM_detectors (l : List DetArg) :
    ((∀ a ∈ l, a.plain) → ∃ ds, l.mapM DetArg.detector = some ds ∧ List.Forall₂ IsDetectorAt l ds) ∧
    (∀ ds, l.mapM DetArg.detector = some ds → ∀ a ∈ l, a.plain) := by
  induction l with
  | nil => exact ⟨fun _ => ⟨[], rfl, .nil⟩, fun _ _ a ha => absurd ha (by simp)⟩
  | cons a l ih =>
    constructor
    · intro h
      obtain ⟨ds, h1, h2⟩ := ih.1 fun b hb => h b (by simp [hb])
      have ha := h a (by simp)
      cases a with
      | det d => exact ⟨d :: ds, by simp [DetArg.detector, h1], .cons rfl h2⟩
      | float x => exact ⟨⟨0, 1, x⟩ :: ds, by simp [DetArg.detector, h1], .cons ⟨rfl, rfl⟩ h2⟩
      | int z => exact absurd ha id
      | npOther x => exact absurd ha id
    · intro ds h b hb
      cases hm : l.mapM DetArg.detector with
      | none =>
        rw [List.mapM_cons] at h
        cases a <;> simp [DetArg.detector, hm] at h
      | some ds' =>
        rcases List.mem_cons.1 hb with rfl | hb
        · rw [List.mapM_cons] at h
          cases b <;> simp [DetArg.detector, hm, DetArg.plain] at h ⊢
        · exact ih.2 ds' hm b hb

/-- **C219 (partial).** An attenuation volume has a detector for each position, in their order, at the angles asked for (those given as `DetectorXRF` objects are
kept), exactly if the positions are `DetectorXRF` objects or Python floats; a single position is a sequence of one. The shape is that of the volumes. What is
missing: integers and 32-bit floats (`C219_positions_violated`). -/
theorem C219_detectors_partial (incident emitted : Option (List ℕ)) (l : List DetArg) (s : List ℕ) (hs : attVolShape incident emitted = some s) :
    (attVolInit incident emitted (.seq l)).isSome = true ↔ ∀ a ∈ l, a.plain := by
  have hd : (DetArgs.seq l).detectors = l.mapM DetArg.detector := rfl
  unfold attVolInit
  rw [hd, hs]
  constructor
  · intro h
    cases hm : l.mapM DetArg.detector with
    | none => rw [hm] at h; simp at h
    | some ds => exact (mapM_detectors l).2 ds hm
  · intro h
    obtain ⟨ds, h1, -⟩ := (mapM_detectors l).1 h
    simp [h1]

/-- **C219.** The detectors of an accepted call, and its shape. -/
theorem C219_accepted (incident emitted : Option (List ℕ)) (args : DetArgs) (ds : List DetectorXrf) (s : List ℕ)
    (h : attVolInit incident emitted args = some (ds, s)) :
    List.Forall₂ IsDetectorAt (match args with | .one a => [a] | .seq l => l) ds ∧ (s.length = 2 ∨ s.length = 3) ∧
    (∀ a, incident = some a → s = a) ∧ (incident = none → emitted = some s) := by
  unfold attVolInit at h
  cases hd : args.detectors with
  | none => rw [hd] at h; simp at h
  | some d =>
    cases hs : attVolShape incident emitted with
    | none => rw [hd, hs] at h; simp at h
    | some s' =>
      rw [hd, hs] at h
      simp only [Option.some.injEq, Prod.mk.injEq] at h
      obtain ⟨rfl, rfl⟩ := h
      refine ⟨?_, ?_⟩
      · have key : ∀ l : List DetArg, l.mapM DetArg.detector = some d → List.Forall₂ IsDetectorAt l d := by
          intro l hl
          obtain ⟨ds, h1, h2⟩ := (mapM_detectors l).1 ((mapM_detectors l).2 d hl)
          rw [hl] at h1
          cases h1
          exact h2
        cases args with
        | seq l => exact key l hd
        | one a =>
          cases a with
          | npOther x => simp [DetArgs.detectors] at hd
          | det x => exact key _ hd
          | float x => exact key _ hd
          | int x => exact key _ hd
      · unfold attVolShape at hs
        cases incident with
        | none =>
          cases emitted with
          | none => simp at hs
          | some b =>
            simp only at hs
            split_ifs at hs with hc
            cases hs
            exact ⟨hc, by simp, fun _ => rfl⟩
        | some a =>
          have : s' = a ∧ (a.length = 2 ∨ a.length = 3) := by
            cases emitted with
            | none =>
              simp only at hs
              split_ifs at hs with hc
              cases hs
              exact ⟨rfl, hc⟩
            | some b =>
              simp only at hs
              by_cases hab : shapesAgree a b = true
              · rw [if_pos hab] at hs
                simp only at hs
                split_ifs at hs with hc
                cases hs
                exact ⟨rfl, hc⟩
              · rw [if_neg hab] at hs
                simp at hs
          rw [this.1]
          exact ⟨this.2, fun a' h => Option.some.inj h, by simp⟩

/-- The angle that a position asks for. -/
def DetArg.askedAngle : DetArg → ℝ
  | .det d => d.angle
  | .float x => x
  | .npOther x => x
  | .int z => z

private theorem angles_of_detectors {l : List DetArg} {ds : List DetectorXrf} (h1 : List.Forall₂ IsDetectorAt l ds) :
    detectorAngles ds = l.map DetArg.askedAngle := by
  unfold detectorAngles
  induction h1 with
  | nil => rfl
  | @cons a d l ds h _ ih =>
    rw [List.map_cons, List.map_cons, ih]
    congr 1
    cases a with
    | det d' => rw [show d = d' from h]; rfl
    | float x => exact h.1
    | npOther x => exact h.1
    | int z => exact h.1

/-- **C219.** The detector angles of an accepted call are those asked for, in their order. -/
theorem C219_angles (incident emitted : Option (List ℕ)) (args : DetArgs) (ds : List DetectorXrf) (s : List ℕ)
    (h : attVolInit incident emitted args = some (ds, s)) :
    detectorAngles ds = (match args with | .one a => [a] | .seq l => l).map DetArg.askedAngle := by
  have key : ∀ l : List DetArg, List.Forall₂ IsDetectorAt l ds → detectorAngles ds = l.map DetArg.askedAngle := fun l h1 => angles_of_detectors h1
  have h1 := (C219_accepted incident emitted args ds s h).1
  cases args with
  | one a => exact key _ h1
  | seq l => exact key _ h1

/-- Two detectors around a two-dimensional map. -/
example : attVolInit (some [4, 4]) none (.seq [.float 1.5, .det ⟨3, 2, -1.5⟩]) = some ([⟨0, 1, 1.5⟩, ⟨3, 2, -1.5⟩], [4, 4]) := rfl

/-- **C219 (partial).** No volumes at all, volumes of the same number of dimensions and different shapes, and volumes of other than two or three dimensions are
refused; everything else that agrees is accepted. What is missing: `C219_shapes_violated`. -/
theorem C219_shapes_partial (incident emitted : Option (List ℕ)) (hlen : ∀ a b, incident = some a → emitted = some b → a.length = b.length) :
    (attVolShape incident emitted).isSome = true ↔ ∃ s, (s.length = 2 ∨ s.length = 3) ∧ (incident = some s ∧ emitted = none ∨ incident = none ∧ emitted = some s ∨
      incident = some s ∧ emitted = some s) := by
  unfold attVolShape
  cases incident with
  | none =>
    cases emitted with
    | none => simp
    | some b =>
      simp only
      constructor
      · intro h
        split_ifs at h with hc
        · exact ⟨b, hc, by simp⟩
        · simp at h
      · rintro ⟨s, hs, h⟩
        simp only [reduceCtorEq, false_and, Option.some.injEq, true_and, or_false, false_or] at h
        subst h
        rw [if_pos hs]; rfl
  | some a =>
    cases emitted with
    | none =>
      simp only
      constructor
      · intro h
        split_ifs at h with hc
        · exact ⟨a, hc, by simp⟩
        · simp at h
      · rintro ⟨s, hs, h⟩
        simp only [Option.some.injEq, and_true, reduceCtorEq, false_and, and_false, or_false] at h
        subst h
        rw [if_pos hs]; rfl
    | some b =>
      have hl := hlen a b rfl rfl
      have e : shapesAgree a b = true ↔ a = b := by
        unfold shapesAgree
        rw [if_pos hl]
        simp
      simp only
      constructor
      · intro h
        by_cases hab : shapesAgree a b = true
        · rw [if_pos hab] at h
          simp only at h
          split_ifs at h with hc
          · have := e.1 hab
            subst this
            exact ⟨a, hc, by simp⟩
          · simp at h
        · rw [if_neg hab] at h; simp at h
      · rintro ⟨s, hs, h⟩
        simp only [Option.some.injEq, reduceCtorEq, and_false, false_and, false_or] at h
        obtain ⟨rfl, rfl⟩ := h
        rw [if_pos (e.2 rfl)]
        simp only
        rw [if_pos hs]; rfl

/-- **C219 (violated).** A detector position is accepted as any kind of number: integers and 32-bit floats are refused. -/
theorem C219_positions_violated : ¬ ∀ (shape : List ℕ) (args : DetArgs), shape.length = 2 → (attVolInit (some shape) none args).isSome = true := by
  intro h
  have := h [4, 4] (.one (.int 0)) rfl
  simp [attVolInit, DetArgs.detectors, DetArg.detector] at this

/-- **C219 (violated).** Volumes of different shapes are refused: a cube and a line of the same length are not. -/
theorem C219_shapes_violated : ¬ ∀ a b : List ℕ, a ≠ b → attVolShape (some a) (some b) = none := by
  intro h
  have := h [5, 5, 5] [5] (by decide)
  revert this
  decide

/-! ## C220 -/

/-- The size along the axis named `k`: that of the axis with this letter, for data whose axes are named by the last letters of the format. -/
def IsSizeOf (format : List Char) (shape : List ℕ) (k : Char) (n : ℕ) : Prop :=
  ∃ i, i < shape.length ∧ format[format.length - shape.length + i]? = some k ∧ shape[i]? = some n

theorem lookup_reverse_zip (f : List Char) (s : List ℕ) (hf : f.length = s.length) (hnd : f.Nodup) (i : ℕ) (k : Char) (n : ℕ) (hk : f[i]? = some k) (hn : s[i]? = some n) :
    ((f.zip s).reverse).lookup k = some n := by
  have hmem : (k, n) ∈ (f.zip s).reverse := by
    rw [List.mem_reverse]
    refine List.mem_iff_getElem?.2 ⟨i, ?_⟩
    rw [List.getElem?_zip_eq_some]
    exact ⟨hk, hn⟩
  have hnd' : ((f.zip s).reverse.map Prod.fst).Nodup := by
    rw [List.map_reverse, List.nodup_reverse, List.map_fst_zip (by omega)]
    exact hnd
  generalize (f.zip s).reverse = l at hmem hnd'
  induction l with
  | nil => simp at hmem
  | cons a l ih =>
    obtain ⟨k', n'⟩ := a
    simp only [List.map_cons, List.nodup_cons] at hnd'
    rw [List.lookup_cons]
    rcases List.mem_cons.1 hmem with h | h
    · cases h; simp
    · have hne : k ≠ k' := by
        rintro rfl
        exact hnd'.1 (List.mem_map.2 ⟨(k, n), h, rfl⟩)
      simp only [beq_eq_false_iff_ne.2 hne]
      exact ih h hnd'.2

theorem dataSize_eq (format : List Char) (shape : List ℕ) (hlen : shape.length ≤ format.length) (hnd : format.Nodup) (k : Char) (n : ℕ) (h : IsSizeOf format shape k n) :
    dataSize format shape k = n := by
  obtain ⟨i, hi, hk, hn⟩ := h
  unfold dataSize
  simp only
  rw [lookup_reverse_zip _ shape (by rw [List.length_drop]; omega) (hnd.sublist (List.drop_sublist _ _)) i k n (by rw [List.getElem?_drop]; exact hk) hn]
  rfl

/-- **C220.** The number of detectors is the size of axis `d`, and data with another number of projections (axis `w`) than of angles are refused, for any naming
of the axes. Limits that are given are kept. -/
theorem C220_sizes (format : List Char) (shape : List ℕ) (hlen : shape.length ≤ format.length) (hnd : format.Nodup) (w nd numAngles : ℕ) (hw : IsSizeOf format shape 'w' w)
    (hd : IsSizeOf format shape 'd' nd ∨ (∀ n, ¬ IsSizeOf format shape 'd' n) ∧ nd = 1) (maxShifts : Option (List ℝ)) :
    (w ≠ numAngles → shiftSetup format shape numAngles maxShifts = none) ∧
    (∀ r, shiftSetup format shape numAngles maxShifts = some r → w = numAngles ∧ r.numDets = nd ∧ ∀ l, maxShifts = some l → r.maxShifts = l) ∧
    (w = numAngles → maxShifts ≠ none → (shiftSetup format shape numAngles maxShifts).isSome = true) := by
  have e1 := dataSize_eq format shape hlen hnd 'w' w hw
  have e2 : dataSize format shape 'd' = nd := by
    rcases hd with hd | ⟨hd, rfl⟩
    · exact dataSize_eq format shape hlen hnd 'd' nd hd
    · unfold dataSize
      simp only
      cases hl : ((format.drop (format.length - shape.length)).zip shape).reverse.lookup 'd' with
      | none => simp
      | some n =>
        exfalso
        have : ('d', n) ∈ ((format.drop (format.length - shape.length)).zip shape).reverse := by
          generalize ((format.drop (format.length - shape.length)).zip shape).reverse = l at hl
          induction l with
          | nil => simp at hl
          | cons a l ih =>
            obtain ⟨k', n'⟩ := a
            rw [List.lookup_cons] at hl
            by_cases hk : 'd' = k'
            · subst hk; simp at hl; subst hl; simp
            · simp only [beq_eq_false_iff_ne.2 hk] at hl
              exact List.mem_cons_of_mem _ (ih hl)
        rw [List.mem_reverse, List.mem_iff_getElem?] at this
        obtain ⟨i, hi⟩ := this
        rw [List.getElem?_zip_eq_some, List.getElem?_drop] at hi
        have hil : i < shape.length := (List.getElem?_eq_some_iff.1 hi.2).1
        exact hd n ⟨i, hil, hi.1, hi.2⟩
  unfold shiftSetup
  rw [if_neg (by omega), e1, e2]
  refine ⟨fun h => by rw [if_pos h], ?_, ?_⟩
  · intro r hr
    by_cases h : w ≠ numAngles
    · rw [if_pos h] at hr; simp at hr
    · rw [if_neg h] at hr
      refine ⟨not_not.1 h, ?_⟩
      cases maxShifts with
      | some l =>
        simp only [Option.some.injEq] at hr
        subst hr
        exact ⟨rfl, fun l' hl => Option.some.inj hl⟩
      | none =>
        simp only [Option.map_eq_some_iff] at hr
        obtain ⟨l, -, rfl⟩ := hr
        exact ⟨rfl, fun l' hl => by simp at hl⟩
  · intro h hm
    rw [if_neg (not_not.2 h)]
    cases maxShifts with
    | some l => rfl
    | none => exact absurd rfl hm

/-- **C220 (partial).** With the axes in the order detector, row, angle, column, shifts are limited by default to half of the number of rows (if there are
several) and half of the number of columns. What is missing: other orders of the axes (`C220_format_violated`). -/
theorem C220_default_limits_partial (D V W U : ℕ) : 
    shiftSetup ['d', 'v', 'w', 'u'] [W, U] W none = some ⟨1, [(U : ℝ) / 2]⟩ ∧
    shiftSetup ['d', 'v', 'w', 'u'] [V, W, U] W none = some ⟨1, if 1 < V then [(V : ℝ) / 2, (U : ℝ) / 2] else [(U : ℝ) / 2]⟩ ∧
    shiftSetup ['d', 'v', 'w', 'u'] [D, V, W, U] W none = some ⟨D, if 1 < V then [(V : ℝ) / 2, (U : ℝ) / 2] else [(U : ℝ) / 2]⟩ := by
  refine ⟨?_, ?_, ?_⟩
  · simp [shiftSetup, dataSize, fromEnd, List.lookup]
  · by_cases h : 1 < V <;> simp [shiftSetup, dataSize, fromEnd, List.lookup, h]
  · by_cases h : 1 < V <;> simp [shiftSetup, dataSize, fromEnd, List.lookup, h]

/-- **C220 (violated).** Whatever the order of the axes, the default limits are half of the numbers of rows and of columns: with the angles first, half of the
number of angles is the limit of the vertical shifts. -/
theorem C220_format_violated : ¬ ∀ (format : List Char) (shape : List ℕ) (v w u : ℕ) (r : ShiftSetup), format.Nodup → shape.length ≤ format.length →
    IsSizeOf format shape 'v' v → IsSizeOf format shape 'w' w → IsSizeOf format shape 'u' u → 1 < v → shiftSetup format shape w none = some r →
      r.maxShifts = [(v : ℝ) / 2, (u : ℝ) / 2] := by
  intro h
  have h1 := h ['d', 'w', 'v', 'u'] [10, 4, 6] 4 10 6 ⟨1, [(10 : ℝ) / 2, (6 : ℝ) / 2]⟩ (by decide) (by decide) ⟨1, by decide, rfl, rfl⟩ ⟨0, by decide, rfl, rfl⟩ ⟨2, by decide, rfl, rfl⟩
    (by norm_num) (by simp [shiftSetup, dataSize, fromEnd, List.lookup])
  norm_num at h1

/-- **C220.** Borders take away their number of entries at both ends; a border of zero, a negative one or none take away nothing. -/
theorem C220_borders (n : ℕ) (border : Option ℤ) (i : ℕ) (hi : i < n) :
    ((borderRange n border).1 ≤ i ∧ i < (borderRange n border).2) ↔ ∀ s, border = some s → s ≤ (i : ℤ) ∧ s ≤ (n : ℤ) - 1 - i ∨ s ≤ 0 := by
  cases border with
  | none => simp [borderRange, hi]
  | some s =>
    unfold borderRange
    simp only [Option.some.injEq, forall_eq']
    split_ifs with hs <;> simp only <;> omega

example : borderRange 10 (some 2) = (2, 8) := rfl

end Verif
