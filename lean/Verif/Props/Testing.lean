import Verif.Model.Testing
import Verif.Spec.Operators

/-!
# Phantoms, noise and synthetic sinograms: C183-C188
-/

namespace Verif

open Finset

/-! ## C183: phases of the phantom -/

/-- The four fractions are numbers 0 or 1, at most one of them being 1. -/
private theorem phase_cases (v : ℝ) :
    (v < 0.1 ∧ phaseFractions v = [1, 0, 0, 0]) ∨ (0.5 < v ∧ phaseFractions v = [0, 1, 0, 0]) ∨
    (0.25 < v ∧ v < 0.5 ∧ phaseFractions v = [0, 0, 1, 0]) ∨ (0.1 < v ∧ v < 0.25 ∧ phaseFractions v = [0, 0, 0, 1]) ∨
    ((v = 0.1 ∨ v = 0.25 ∨ v = 0.5) ∧ phaseFractions v = [0, 0, 0, 0]) := by
  unfold phaseFractions
  rcases lt_trichotomy v 0.1 with h | h | h
  · left
    refine ⟨h, ?_⟩
    rw [if_pos h, if_neg (by norm_num at h ⊢; linarith), if_neg (by norm_num at h ⊢; intro; linarith),
      if_neg (by norm_num at h ⊢; intro; linarith)]
  · right; right; right; right
    subst h
    norm_num
  · rcases lt_trichotomy v 0.25 with h' | h' | h'
    · right; right; right; left
      refine ⟨h, h', ?_⟩
      rw [if_neg (by norm_num at h ⊢; linarith), if_neg (by norm_num at h' ⊢; linarith),
        if_neg (by norm_num at h' ⊢; intro; linarith), if_pos ⟨h, h'⟩]
    · right; right; right; right
      subst h'
      norm_num
    · rcases lt_trichotomy v 0.5 with h'' | h'' | h''
      · right; right; left
        refine ⟨h', h'', ?_⟩
        rw [if_neg (by norm_num at h ⊢; linarith), if_neg (by norm_num at h'' ⊢; linarith), if_pos ⟨h', h''⟩,
          if_neg (by norm_num at h' ⊢; intro; linarith)]
      · right; right; right; right
        subst h''
        norm_num
      · right; left
        refine ⟨h'', ?_⟩
        rw [if_neg (by norm_num at h ⊢; linarith), if_pos h'', if_neg (by norm_num at h'' ⊢; intro; linarith),
          if_neg (by norm_num at h' ⊢; intro; linarith)]

private theorem phantom_att {V : Type} (t : XrayTables) (compound : String → Compound) (ph : V → ℝ) (voxel e : ℝ) (j : V) :
    getAttenuation t (phantomMaterials compound ph) voxel e j =
      ((phaseFractions (ph j)).getD 0 0 * (compound "Air, Dry (near sea level)").density * crossSection t (compound "Air, Dry (near sea level)") e +
       (phaseFractions (ph j)).getD 1 0 * (compound "Ferric Oxide").density * crossSection t (compound "Ferric Oxide") e +
       (phaseFractions (ph j)).getD 2 0 * (compound "Calcium Oxide").density * crossSection t (compound "Calcium Oxide") e +
       (phaseFractions (ph j)).getD 3 0 * (compound "Calcium Carbonate").density * crossSection t (compound "Calcium Carbonate") e) *
      voxel := by
  simp only [getAttenuation, phantomMaterials, phaseNames, List.range, List.range.loop, List.map_cons, List.map_nil, List.sum_cons,
    List.sum_nil, List.getD_cons_zero, List.getD_cons_succ]
  ring

/-- The material that the docstring's phantom has at a grey value: air below 0.1, calcium carbonate up to 0.25, calcium oxide up to
0.5, ferric oxide above. -/
noncomputable def phaseOf (v : ℝ) : String :=
  if v < 0.1 then "Air, Dry (near sea level)" else if v < 0.25 then "Calcium Carbonate" else if v < 0.5 then "Calcium Oxide"
  else "Ferric Oxide"

/-- The property C183 in full: every voxel of the phantom is made of the one material of its grey value — it attenuates as much as a
voxel of that material. -/
def PhantomComplete : Prop :=
  ∀ (t : XrayTables) (lt : LineTables) (compound : String → Compound) (ph : Fin 1 → ℝ) (element line : String) (energy um : ℝ) (j : Fin 1),
    let r := phantomConcentration t lt compound ph element line energy um
    let c := compound (phaseOf (ph j))
    r.2.1 j = c.density * crossSection t c energy * voxelSizeCm um ∧
    r.2.2 j = c.density * crossSection t c (lt.energyOut element line) * voxelSizeCm um

/-- C183 is false: at a grey value of exactly one half, the voxel belongs to no phase. -/
theorem C183_phases_violated : ¬ PhantomComplete := by
  intro h
  have h1 := (h ⟨fun _ _ => some 1, fun _ _ => 1, fun _ _ _ => 1, fun _ => 1⟩ ⟨fun _ _ _ => [], fun _ _ => 1, fun _ => 1⟩
    (fun s => ⟨s, [], [], 1⟩) (fun _ => 0.5) "Ca" "KA" 20 1 0).1
  simp only [phantomConcentration] at h1
  rw [phantom_att] at h1
  norm_num [phaseFractions, crossSection, voxelSizeCm] at h1

/-- **C183 (partial).** In every voxel whose grey value is not exactly 0.1, 0.25 or 0.5, the phantom is made of exactly the material of
that grey value: it attenuates as that material at the incoming and at the outgoing energy, and it produces the fluorescence of the
element's mass fraction in that material. What is missing: at the three values the voxel is empty — it neither attenuates nor
fluoresces. In all voxels no two phases overlap. -/
theorem C183_phases_partial {V : Type} (t : XrayTables) (lt : LineTables) (compound : String → Compound) (ph : V → ℝ)
    (element line : String) (energy um : ℝ) (j : V) :
    let r := phantomConcentration t lt compound ph element line energy um
    let c := compound (phaseOf (ph j))
    (ph j ≠ 0.1 → ph j ≠ 0.25 → ph j ≠ 0.5 →
      r.2.1 j = c.density * crossSection t c energy * (um / 10000) ∧
      r.2.2 j = c.density * crossSection t c (lt.energyOut element line) * (um / 10000) ∧
      r.1 j = (if lt.number element ∈ c.elements then
          c.density * c.massFractions.getD (c.elements.idxOf (lt.number element)) 0 else 0) *
        ((lt.yields element line energy).map fun y => y.getD 0).sum * (um / 10000)) ∧
    (ph j = 0.1 ∨ ph j = 0.25 ∨ ph j = 0.5 → r.1 j = 0 ∧ r.2.1 j = 0 ∧ r.2.2 j = 0) := by
  intro r c
  have hv : voxelSizeCm um = um / 10000 := by unfold voxelSizeCm; norm_num; ring
  have hatt1 : r.2.1 j = _ := phantom_att t compound ph (voxelSizeCm um) energy j
  have hatt2 : r.2.2 j = _ := phantom_att t compound ph (voxelSizeCm um) (lt.energyOut element line) j
  have hfl : r.1 j = elementMassFraction (phantomMaterials compound ph) (lt.number element) j *
      ((lt.yields element line energy).map fun y => y.getD 0).sum * voxelSizeCm um * 1 := rfl
  have hmass : elementMassFraction (phantomMaterials compound ph) (lt.number element) j =
      (List.map (fun k => if lt.number element ∈ (compound (phaseNames.getD k "")).elements then
        (phaseFractions (ph j)).getD k 0 * (compound (phaseNames.getD k "")).density *
          (compound (phaseNames.getD k "")).massFractions.getD ((compound (phaseNames.getD k "")).elements.idxOf (lt.number element)) 0
        else 0) (List.range 4)).sum := by
    simp only [elementMassFraction, phantomMaterials, List.map_map, Function.comp_def]
  simp only [phaseNames, List.range, List.range.loop, List.map_cons, List.map_nil, List.sum_cons,
    List.sum_nil, List.getD_cons_zero, List.getD_cons_succ] at hmass
  rw [hatt1, hatt2, hfl, hmass, hv]
  have hc : c = compound (phaseOf (ph j)) := rfl
  rcases phase_cases (ph j) with ⟨h, hp⟩ | ⟨h, hp⟩ | ⟨h, h', hp⟩ | ⟨h, h', hp⟩ | ⟨h, hp⟩
  · have : phaseOf (ph j) = "Air, Dry (near sea level)" := by simp only [phaseOf, if_pos h]
    rw [this] at hc
    rw [hp, hc]
    refine ⟨fun _ _ _ => ⟨?_, ?_, ?_⟩, fun h' => ?_⟩
    · simp
    · simp
    · simp
    · norm_num at h h'; rcases h' with h' | h' | h' <;> linarith
  · have : phaseOf (ph j) = "Ferric Oxide" := by
      simp only [phaseOf]
      rw [if_neg (by norm_num at h ⊢; linarith), if_neg (by norm_num at h ⊢; linarith), if_neg (by norm_num at h ⊢; linarith)]
    rw [this] at hc
    rw [hp, hc]
    refine ⟨fun _ _ _ => ⟨?_, ?_, ?_⟩, fun h' => ?_⟩
    · simp
    · simp
    · simp
    · norm_num at h h'; rcases h' with h' | h' | h' <;> linarith
  · have : phaseOf (ph j) = "Calcium Oxide" := by
      simp only [phaseOf]
      rw [if_neg (by norm_num at h ⊢; linarith), if_neg (by norm_num at h ⊢; linarith), if_pos h']
    rw [this] at hc
    rw [hp, hc]
    refine ⟨fun _ _ _ => ⟨?_, ?_, ?_⟩, fun h'' => ?_⟩
    · simp
    · simp
    · simp
    · norm_num at h h' h''; rcases h'' with h'' | h'' | h'' <;> linarith
  · have : phaseOf (ph j) = "Calcium Carbonate" := by
      simp only [phaseOf]
      rw [if_neg (by norm_num at h ⊢; linarith), if_pos h']
    rw [this] at hc
    rw [hp, hc]
    refine ⟨fun _ _ _ => ⟨?_, ?_, ?_⟩, fun h'' => ?_⟩
    · simp
    · simp
    · simp
    · norm_num at h h' h''; rcases h'' with h'' | h'' | h'' <;> linarith
  · rw [hp]
    refine ⟨fun h1 h2 h3 => ?_, fun _ => ?_⟩
    · rcases h with h | h | h
      · exact absurd h h1
      · exact absurd h h2
      · exact absurd h h3
    · simp

/-- A voxel of calcium oxide. -/
example (t : XrayTables) (lt : LineTables) (compound : String → Compound) :
    (phantomConcentration t lt compound (fun _ : Fin 3 => 0.3) "Ca" "KA" 20 1).2.1 1 =
      (compound "Calcium Oxide").density * crossSection t (compound "Calcium Oxide") 20 * (1 / 10000) := by
  have := ((C183_phases_partial t lt compound (fun _ : Fin 3 => 0.3) "Ca" "KA" 20 1 1).1 (by norm_num) (by norm_num) (by norm_num)).1
  rw [this]
  norm_num [phaseOf]

/-! ## C184: several elements -/

private theorem mapM_range {α : Type} (f : ℕ → Option α) (n : ℕ) (l : List α) (h : (List.range n).mapM f = some l) :
    l.length = n ∧ ∀ i, i < n → f i = l[i]? := by
  have h2 : List.Forall₂ (fun a b => f a = some b) (List.range n) l := by
    have : ∀ (xs : List ℕ) (ys : List α), xs.mapM f = some ys → List.Forall₂ (fun a b => f a = some b) xs ys := by
      intro xs
      induction xs with
      | nil => intro ys h; simp at h; subst h; exact .nil
      | cons x xs ih =>
        intro ys h
        rw [List.mapM_cons] at h
        cases hx : f x with
        | none => rw [hx] at h; simp at h
        | some y =>
          cases hy : xs.mapM f with
          | none => rw [hx, hy] at h; simp at h
          | some zs =>
            rw [hx, hy] at h
            simp at h
            subst h
            exact .cons hx (ih zs hy)
    exact this _ _ h
  have hl : l.length = n := by simpa using h2.length_eq.symm
  refine ⟨hl, fun i hi => ?_⟩
  have := (List.forall₂_iff_get.1 h2).2 i (by simpa using hi) (by omega)
  simp only [List.get_eq_getElem, List.getElem_range] at this
  rw [this, List.getElem?_eq_getElem (by omega)]

private theorem mapM_some {α : Type} (f : ℕ → Option α) (xs : List ℕ) :
    (xs.mapM f).isSome ↔ ∀ x ∈ xs, (f x).isSome := by
  induction xs with
  | nil => simp
  | cons x xs ih =>
    rw [List.mapM_cons]
    cases hx : f x with
    | none => simp [hx]
    | some y =>
      cases hy : xs.mapM f with
      | none =>
        rw [hy] at ih
        simp only [Option.isSome_none, Bool.false_eq_true, false_iff] at ih
        simp [hx]
        simpa using ih
      | some zs =>
        rw [hy] at ih
        simp at ih
        simp [hx]
        exact ih

/-- The property C184 in full: `phantom_assign_concentration_multi` returns one computed volume of production and one of attenuation for
every element, and one of Compton scattering if (and only if) a detector position is given. -/
def MultiComplete : Prop :=
  ∀ (t : XrayTables) (lt : LineTables) (ct : ComptonTables) (compound : String → Compound) (ph : Fin 1 → ℝ) (elements : List String)
    (line : String) (energy : ℝ) (detector : Option ℝ) (r : List (Option (Fin 1 → ℝ)) × (Fin 1 → ℝ) × List (Option (Fin 1 → ℝ))),
    phantomMulti t lt ct compound ph elements (.one line) energy detector = some r →
      (∀ y ∈ r.1, y.isSome) ∧ ∀ y ∈ r.2.2, y.isSome

/-- C184 is false: for a detector in the direction of the beam (position 0) the last volumes are left empty. -/
theorem C184_multi_violated : ¬ MultiComplete := by
  intro h
  have h1 := (h ⟨fun _ _ => some 1, fun _ _ => 1, fun _ _ _ => 1, fun _ => 1⟩ ⟨fun _ _ _ => [], fun _ _ => 1, fun _ => 1⟩
    ⟨fun _ _ _ => some 1, fun _ _ _ => 1, fun _ _ => 1⟩ (fun s => ⟨s, [], [], 1⟩) (fun _ => 0) [] "KA" 20 (some 0)
    ([none], fun j => getAttenuation ⟨fun _ _ => some 1, fun _ _ => 1, fun _ _ _ => 1, fun _ => 1⟩
      (phantomMaterials (fun s => ⟨s, [], [], 1⟩) (fun _ => 0)) (voxelSizeCm 0.5) 20 j, [none]) (by simp [phantomMulti])).1 none (by simp)
  simp at h1

/-- The emission line of element `i`: the same for all, or that at the same place in the list. -/
def lineOf : EmLines → ℕ → Option String
  | .one l, _ => some l
  | .each ls, i => ls[i]?

/-- **C184 (partial).** If every element has an emission line, the result has one volume of production and one of attenuation for each
element, which are those of `phantom_assign_concentration` for that element and line; the attenuation at the incoming energy is the same as there; and
for a detector position other than 0 one more pair: the Compton production and the attenuation at the Compton energy, at that position.
Otherwise (a list of lines shorter than the list of elements) the call fails. What is missing: detector position 0, for which the last
pair of volumes is empty. -/
theorem C184_multi_partial {V : Type} (t : XrayTables) (lt : LineTables) (ct : ComptonTables) (compound : String → Compound) (ph : V → ℝ)
    (elements : List String) (lines : EmLines) (energy : ℝ) (detector : Option ℝ) (hd : detector ≠ some 0) :
    ((phantomMulti t lt ct compound ph elements lines energy detector).isSome ↔ ∀ i < elements.length, (lineOf lines i).isSome) ∧
    ∀ r, phantomMulti t lt ct compound ph elements lines energy detector = some r →
      r.1.length = elements.length + (if detector.isSome then 1 else 0) ∧ r.2.2.length = r.1.length ∧
      (∀ i < elements.length, ∀ l, lineOf lines i = some l →
        let c := phantomConcentration t lt compound ph (elements.getD i "") l energy 0.5
        r.1[i]? = some (some c.1) ∧ r.2.1 = c.2.1 ∧ r.2.2[i]? = some (some c.2.2)) ∧
      ∀ a, detector = some a → ∃ e y, comptonScattering ct (phantomMaterials compound ph) (voxelSizeCm 0.5) energy (some a) none = some (e, y) ∧
        r.1[elements.length]? = some (some y) ∧
        r.2.2[elements.length]? = some (some fun j => getAttenuation t (phantomMaterials compound ph) (voxelSizeCm 0.5) e j) := by
  have hl : ∀ i, lineOf lines i = lines.line i := fun i => by cases lines <;> rfl
  simp only [hl]
  set f : ℕ → Option (Option (V → ℝ) × Option (V → ℝ)) := fun i => (lines.line i).map fun l =>
    (some fun j => fluoProduction (phantomMaterials compound ph) (lt.number (elements.getD i "")) (lt.yields (elements.getD i "") l energy)
        (voxelSizeCm 0.5) none j,
     some fun j => getAttenuation t (phantomMaterials compound ph) (voxelSizeCm 0.5) (lt.energyOut (elements.getD i "") l) j) with hf
  have hsome := mapM_some f (List.range elements.length)
  have hline : (∀ x ∈ List.range elements.length, (f x).isSome) ↔ ∀ i < elements.length, (lines.line i).isSome := by
    simp [hf]
  rw [hline] at hsome
  cases hm : (List.range elements.length).mapM f with
  | none =>
    rw [hm] at hsome
    have hn : phantomMulti t lt ct compound ph elements lines energy detector = none := by
      unfold phantomMulti
      dsimp only
      rw [hm]
    rw [hn]
    refine ⟨by rw [← hsome]; simp, fun r h => by simp at h⟩
  | some g =>
    rw [hm] at hsome
    obtain ⟨hlen, hget⟩ := mapM_range f _ g hm
    have helem : ∀ i < elements.length, ∀ l, lines.line i = some l → g[i]? = some
        (some (phantomConcentration t lt compound ph (elements.getD i "") l energy 0.5).1,
         some (phantomConcentration t lt compound ph (elements.getD i "") l energy 0.5).2.2) := by
      intro i hi l hl
      rw [← hget i hi, hf]
      dsimp only
      rw [hl]
      rfl
    cases hdet : detector with
    | none =>
      have hn : phantomMulti t lt ct compound ph elements lines energy none =
          some (g.map Prod.fst, fun j => getAttenuation t (phantomMaterials compound ph) (voxelSizeCm 0.5) energy j, g.map Prod.snd) := by
        unfold phantomMulti
        dsimp only
        rw [hm]
        simp
      rw [hn]
      refine ⟨by simpa using hsome, fun r hr => ?_⟩
      simp only [Option.some.injEq] at hr
      subst hr
      refine ⟨by simp [hlen], by simp, fun i hi l hl => ⟨?_, rfl, ?_⟩, fun a ha => by simp at ha⟩
      · dsimp only
        rw [List.getElem?_map, helem i hi l hl]; rfl
      · dsimp only
        rw [List.getElem?_map, helem i hi l hl]; rfl
    | some a =>
      have ha : a ≠ 0 := by rintro rfl; exact hd hdet
      set e := ct.energyOut energy a with he
      set y : V → ℝ := fun j => ((phantomMaterials compound ph).map fun m => m.1 j * m.2.density * comptonCs ct m.2 energy a).sum *
        voxelSizeCm 0.5 * 1 with hy
      have hn : phantomMulti t lt ct compound ph elements lines energy (some a) =
          some ((g ++ [(some y, some fun j => getAttenuation t (phantomMaterials compound ph) (voxelSizeCm 0.5) e j)]).map Prod.fst,
            fun j => getAttenuation t (phantomMaterials compound ph) (voxelSizeCm 0.5) energy j,
            (g ++ [(some y, some fun j => getAttenuation t (phantomMaterials compound ph) (voxelSizeCm 0.5) e j)]).map Prod.snd) := by
        unfold phantomMulti
        dsimp only
        rw [hm]
        simp only [Option.isSome_some, if_true, comptonScattering, Option.orElse, ne_eq, ha, not_false_eq_true, List.length_append,
          List.length_cons, List.length_nil, Option.elim]
        rw [show g.length + (0 + 1) - 1 = g.length by omega, List.set_append_right _ _ (le_refl _)]
        simp [hy, he]
      rw [hn]
      refine ⟨by simpa using hsome, fun r hr => ?_⟩
      simp only [Option.some.injEq] at hr
      subst hr
      refine ⟨by simp [hlen], by simp, fun i hi l hl => ⟨?_, rfl, ?_⟩, fun a' ha' => ?_⟩
      · dsimp only
        rw [List.getElem?_map, List.getElem?_append_left (by omega), helem i hi l hl]; rfl
      · dsimp only
        rw [List.getElem?_map, List.getElem?_append_left (by omega), helem i hi l hl]; rfl
      · simp only [Option.some.injEq] at ha'
        subst ha'
        refine ⟨e, y, by simp [comptonScattering, hy, he, Option.orElse], ?_, ?_⟩
        · dsimp only
          rw [List.getElem?_map, List.getElem?_append_right (by omega), hlen]; simp
        · dsimp only
          rw [List.getElem?_map, List.getElem?_append_right (by omega), hlen]; simp

/-- Two elements, a detector at 90 degrees. -/
example (t : XrayTables) (lt : LineTables) (ct : ComptonTables) (compound : String → Compound) (ph : Fin 4 → ℝ) :
    (phantomMulti t lt ct compound ph ["Ca", "Fe"] (.each ["KA", "KB"]) 20 (some 1.5)).isSome ∧
    phantomMulti t lt ct compound ph ["Ca", "Fe"] (.each ["KA"]) 20 none = none := by
  refine ⟨(C184_multi_partial t lt ct compound ph _ _ 20 (some 1.5) (by norm_num)).1.2 ?_, ?_⟩
  · intro i hi
    simp at hi
    interval_cases i <;> simp [lineOf]
  · have := (C184_multi_partial t lt ct compound ph ["Ca", "Fe"] (.each ["KA"]) 20 none (by simp)).1
    rw [← Option.not_isSome_iff_eq_none, this]
    intro h
    have := h 1 (by simp)
    simp [lineOf] at this

end Verif
