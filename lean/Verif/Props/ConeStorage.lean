import Verif.Model.ConeSetup
import Verif.Props.Fits

/-!
# C205–C208: changes, storage, volumes and tuning of cone-beam geometries
-/

namespace Verif

/-! ## C205: changes of one parameter -/

theorem PyNum.add_val (a b : PyNum) : (a.add b).val = a.val + b.val := by
  cases a <;> cases b <;> simp [PyNum.add, PyNum.val]

theorem PyNum.around_val (d : ℕ) (a : PyNum) : |(a.around d).val - a.val| ≤ 1 / (2 * 10 ^ d) := by
  cases a with
  | int z => simp only [PyNum.around, PyNum.val, sub_self, abs_zero]; positivity
  | npInt z => simp only [PyNum.around, PyNum.val, sub_self, abs_zero]; positivity
  | float x => exact around_error d x

/-- The value that is asked for. -/
noncomputable def Spec.target (g : ConeFields) (f : ConeField) (v : PyNum) (relative : Bool) : ℝ :=
  if relative then (g f).val + v.val else v.val

/-- **C205, proved part.** `update` changes the named parameter only, to the value that is asked for: exactly without decimals, else up to
half a unit of the last one. The tuning geometries are those for each of the values, in the same order. -/
theorem C205_update_partial (g : ConeFields) (f : ConeField) (v : PyNum) (relative : Bool) (decimals : Option ℕ) (vals : List PyNum) :
    (∀ f', f' ≠ f → g.update f v relative decimals f' = g f') ∧
    |(g.update f v relative decimals f).val - Spec.target g f v relative| ≤ (match decimals with
      | none => 0
      | some d => 1 / (2 * 10 ^ d)) ∧
    ((g.tuningParams f vals relative).length = vals.length ∧
      ∀ i : ℕ, (g.tuningParams f vals relative)[i]? = vals[i]?.map fun w => g.update f w relative (some 3)) := by
  have ht : (if relative then (g f).add v else v).val = Spec.target g f v relative := by
    unfold Spec.target
    cases relative
    · rfl
    · simp [PyNum.add_val]
  refine ⟨fun f' h => ?_, ?_, ?_, fun i => ?_⟩
  · unfold ConeFields.update
    simp [Function.update_of_ne h]
  · unfold ConeFields.update
    cases decimals with
    | none => simp only [Function.update_self, ht, sub_self, abs_zero, le_refl]
    | some d =>
      simp only [Function.update_self, ← ht]
      exact PyNum.around_val d _
  · simp [ConeFields.tuningParams]
  · simp [ConeFields.tuningParams]

/-- **C205 (violated).** It is false that different values give different tuning geometries: the values are rounded to three decimals, so
steps of less than half a thousandth (of a degree, for the angles) are not tested at all. -/
theorem C205_distinct_violated :
    ¬ ∀ (g : ConeFields) (f : ConeField) (a b : ℝ), a ≠ b →
      ∃ g1 g2, g.tuningParams f [.float a, .float b] true = [g1, g2] ∧ (g1 f).val ≠ (g2 f).val := by
  intro h
  obtain ⟨g1, g2, h1, h2⟩ := h (fun _ => .float 0) .phiDeg (1 / 10000) (2 / 10000) (by norm_num)
  unfold ConeFields.tuningParams at h1
  simp only [List.map_cons, List.map_nil] at h1
  apply h2
  obtain ⟨e1, e2⟩ := List.cons.inj h1
  obtain ⟨e2, -⟩ := List.cons.inj e2
  have hr : ∀ x : ℝ, 0 ≤ x → x < 1 / 2000 → around 3 x = 0 := by
    intro x h0 h1
    have hf : ⌊x * 10 ^ 3⌋ = 0 := by
      rw [Int.floor_eq_zero_iff, Set.mem_Ico]; constructor
      · positivity
      · norm_num; linarith
    unfold around
    simp only [hf]
    rw [if_pos (by push_cast; linarith)]
    simp
  rw [← e1, ← e2]
  unfold ConeFields.update
  simp only [if_true, Function.update_self, PyNum.add, PyNum.around, PyNum.val, zero_add]
  rw [hr _ (by norm_num) (by norm_num), hr _ (by norm_num) (by norm_num)]

/-! ## C206: JSON -/

theorem loadFields_all (g g0 : ConeFields) : ∀ l : List ConeField,
    (∀ f ∈ l, (ConeField.all.map fun f => (f.name, g f)).lookup f.name = some (g f)) →
    (loadFields (ConeField.all.map fun f => (f.name, g f)) l g0).2 = none ∧
    ∀ f, (loadFields (ConeField.all.map fun f => (f.name, g f)) l g0).1 f = if f ∈ l then g f else g0 f := by
  intro l
  induction l generalizing g0 with
  | nil => intro _; exact ⟨rfl, fun f => by simp [loadFields]⟩
  | cons a l ih =>
    intro h
    unfold loadFields
    rw [h a (by simp)]
    simp only
    obtain ⟨i1, i2⟩ := ih (Function.update g0 a (g a)) (fun f hf => h f (List.mem_cons_of_mem _ hf))
    refine ⟨i1, fun f => ?_⟩
    rw [i2 f]
    by_cases hl : f ∈ l
    · simp [hl]
    · by_cases ha : f = a
      · subst ha; simp [hl]
      · simp [hl, ha]

/-- **C206, proved part (1).** Whatever the object held before, loading what was written restores all the parameters. -/
theorem C206_round_trip (g g0 : ConeFields) (j : JTree) (h : g.toJson = some j) : g0.fromJson j = (g, none) := by
  unfold ConeFields.toJson at h
  split at h
  · obtain rfl := Option.some.inj h
    show (if "ConeBeamGeometry" ≠ "ConeBeamGeometry" then (g0, some "TypeError") else
      loadFields (ConeField.all.map fun f => (f.name, g f)) ConeField.all g0) = (g, none)
    rw [if_neg (by simp)]
    obtain ⟨h1, h2⟩ := loadFields_all g g0 ConeField.all (by
      intro f _
      cases f <;> simp [ConeField.all, ConeField.name, List.lookup])
    apply Prod.ext
    · funext f
      rw [h2 f]
      cases f <;> simp [ConeField.all]
    · exact h1
  · cases h

/-- **C206, proved part (2).** Geometries of plain numbers can be written; text of another class or of several objects is refused, without
changes. -/
theorem C206_refusals (g g0 : ConeFields) (name : String) (data : List (String × PyNum)) (j : JTree) :
    ((∀ f, (g f).isPlain = true) → (g.toJson).isSome) ∧
    (name ≠ "ConeBeamGeometry" → (g0.fromJson [(name, data)]).1 = g0 ∧ (g0.fromJson [(name, data)]).2.isSome) ∧
    (2 ≤ j.length → (g0.fromJson j).1 = g0 ∧ (g0.fromJson j).2.isSome) := by
  refine ⟨fun h => ?_, fun h => ?_, fun h => ?_⟩
  · unfold ConeFields.toJson
    rw [if_pos (by simp [h])]
    rfl
  · have e : g0.fromJson [(name, data)] = (g0, some "TypeError") := by
      show (if name ≠ "ConeBeamGeometry" then (g0, some "TypeError") else loadFields data ConeField.all g0) = (g0, some "TypeError")
      rw [if_pos h]
    rw [e]
    exact ⟨rfl, rfl⟩
  · match j with
    | a :: b :: l => exact ⟨rfl, rfl⟩

/-- **C206 (violated).** It is false that a geometry that can be written still can after `update`: integers become NumPy integers. -/
theorem C206_write_after_update_violated :
    ¬ ∀ (g : ConeFields) (f : ConeField) (v : PyNum), v.isPlain = true → (g.toJson).isSome → ((g.update f v true (some 3)).toJson).isSome := by
  intro h
  have := h (fun _ => .int 0) .sizeV (.int 2) rfl (by rfl)
  have e : (ConeFields.update (fun _ => PyNum.int 0) .sizeV (.int 2) true (some 3)).toJson = none := by
    unfold ConeFields.toJson
    rw [if_neg]
    intro hall
    rw [List.all_eq_true] at hall
    have := hall .sizeV (by simp [ConeField.all])
    simp [ConeFields.update, PyNum.add, PyNum.around, PyNum.isPlain] at this
  rw [e] at this
  simp at this

/-- **C206 (violated).** It is false that a failed load leaves the object as it was: with a missing entry, those before it are already
changed. -/
theorem C206_atomic_load_violated :
    ¬ ∀ (g0 : ConeFields) (j : JTree), (g0.fromJson j).2.isSome → (g0.fromJson j).1 = g0 := by
  intro h
  have := h (fun _ => .int 0) [("ConeBeamGeometry", [("theta_deg", .int 1)])] (by
    simp [ConeFields.fromJson, ConeField.all, loadFields, List.lookup, ConeField.name])
  have := congrFun this .thetaDeg
  simp [ConeFields.fromJson, ConeField.all, loadFields, List.lookup, ConeField.name] at this

/-! ## C207: the volume -/

/-- **C207.** The volume covers the field of view of the detector, whatever the up-sampling. -/
theorem C207_volume_extent (sizeV sizeU k : ℕ) (hk : 0 < k) :
    volExtent (coneVolGeom sizeV sizeU k) =
      [-(sizeU / 2 : ℝ), sizeU / 2, -(sizeU / 2 : ℝ), sizeU / 2, -(sizeV / 2 : ℝ), sizeV / 2] ∧
    (coneVolGeom sizeV sizeU k).1 = [sizeU * k, sizeU * k, sizeV * k] := by
  have hk' : (k : ℝ) ≠ 0 := by positivity
  refine ⟨?_, rfl⟩
  have e : ∀ s : ℕ, ((s * k : ℕ) : ℝ) * (1 / (k : ℝ)) / 2 = s / 2 := by
    intro s; push_cast; field_simp
  unfold volExtent coneVolGeom
  simp only [List.map_cons, List.map_nil, List.flatMap_cons, List.flatMap_nil, e, mul_neg, mul_one, List.cons_append, List.nil_append]

/-! ## C208: tuning -/

/-- The values to test: at least three, increasing. -/
def Spec.goodValues (vals : List ℝ) : Prop := 3 ≤ vals.length ∧ vals.Pairwise (· < ·)

theorem goodValues_scale (vals : List ℝ) (h : Spec.goodValues vals) : GoodScale .linear (fun i => vals.getD i 0) vals.length := by
  refine ⟨fun i j hij hj => ?_, fun h => by cases h⟩
  have := List.pairwise_iff_getElem.1 h.2 i j (by omega) hj hij
  simpa [List.getD_eq_getElem?_getD, List.getElem?_eq_getElem hj, List.getElem?_eq_getElem (lt_trans hij hj)] using this


/-- One tuned parameter. -/
theorem tuneParam_spec (residual : ConeFields → ℝ) (g : ConeFields) (f : ConeField) (vals : List ℝ) (h : Spec.goodValues vals) :
    ∃ g', tuneParam residual g f vals = some g' ∧ (∀ f', f' ≠ f → g' f' = g f') ∧
      (g f).val + vals.getD 0 0 - 1 / 2000 ≤ (g' f).val ∧ (g' f).val ≤ (g f).val + vals.getD (vals.length - 1) 0 + 1 / 2000 := by
  obtain ⟨p, i, r, hr, hi, hi1, hi2, -, hcase⟩ := C91_rounded_value_partial .linear (fun i => vals.getD i 0)
    (fun i => ((g.tuningParams f (vals.map PyNum.float) true).map residual).getD i 0) vals.length 6 h.1 (goodValues_scale vals h)
  have hlen : ((g.tuningParams f (vals.map PyNum.float) true).map residual).length = vals.length := by simp [ConeFields.tuningParams]
  have hx : vals.getD 0 0 ≤ r.1 ∧ r.1 ≤ vals.getD (vals.length - 1) 0 := by
    rcases hcase with h1 | ⟨h1, h2, -⟩
    · rw [h1]
      have hm : argmin (fun i => ((g.tuningParams f (vals.map PyNum.float) true).map residual).getD i 0) vals.length < vals.length := by omega
      generalize argmin (fun i => ((g.tuningParams f (vals.map PyNum.float) true).map residual).getD i 0) vals.length = m at hm
      have hs := (goodValues_scale vals h).1
      constructor
      · rcases Nat.eq_zero_or_pos m with h0 | h0
        · rw [h0]
        · exact (hs 0 m h0 hm).le
      · rcases Nat.lt_or_ge m (vals.length - 1) with h0 | h0
        · exact (hs m (vals.length - 1) h0 (by omega)).le
        · have : m = vals.length - 1 := by omega
          rw [this]
    · exact ⟨h1, h2⟩
  refine ⟨g.update f (.float r.1) true (some 3), ?_, ?_⟩
  · unfold tuneParam
    simp only [hlen, hr]
  · obtain ⟨h1, h2, -⟩ := C205_update_partial g f (.float r.1) true (some 3) []
    have h2' : |(g.update f (.float r.1) true (some 3) f).val - Spec.target g f (.float r.1) true| ≤ 1 / (2 * 10 ^ 3) := h2
    have ht : Spec.target g f (.float r.1) true = (g f).val + r.1 := by simp [Spec.target, PyNum.val]
    rw [ht, abs_le, show (1 : ℝ) / (2 * 10 ^ 3) = 1 / 2000 by norm_num] at h2'
    refine ⟨h1, ?_, ?_⟩
    · linarith [h2'.1, hx.1]
    · linarith [h2'.2, hx.2]

/-- **C208, proved part.** With at least three increasing values for each parameter (each one given once), the tuning does not fail, keeps
the other parameters, and changes each of the given ones to a value within those tested, up to the rounding to three decimals. -/
theorem C208_tuning_partial (residual : ConeFields → ℝ) (g : ConeFields) (params : List (ConeField × List ℝ))
    (h : ∀ x ∈ params, Spec.goodValues x.2) (hn : (params.map Prod.fst).Nodup) :
    ∃ g', tuneGeometry residual g params = some g' ∧ (∀ f, f ∉ params.map Prod.fst → g' f = g f) ∧
      ∀ x ∈ params, (g x.1).val + x.2.getD 0 0 - 1 / 2000 ≤ (g' x.1).val ∧
        (g' x.1).val ≤ (g x.1).val + x.2.getD (x.2.length - 1) 0 + 1 / 2000 := by
  induction params generalizing g with
  | nil => exact ⟨g, rfl, fun _ _ => rfl, fun x hx => absurd hx (by simp)⟩
  | cons a l ih =>
    obtain ⟨f, vals⟩ := a
    simp only [List.map_cons, List.nodup_cons] at hn
    obtain ⟨g1, h1, h2, h3, h4⟩ := tuneParam_spec residual g f vals (h (f, vals) (by simp))
    obtain ⟨g', i1, i2, i3⟩ := ih g1 (fun x hx => h x (List.mem_cons_of_mem _ hx)) hn.2
    refine ⟨g', ?_, ?_, ?_⟩
    · unfold tuneGeometry
      rw [h1]
      exact i1
    · intro f' hf'
      simp only [List.map_cons, List.mem_cons, not_or] at hf'
      rw [i2 f' hf'.2, h2 f' hf'.1]
    · intro x hx
      rcases List.mem_cons.1 hx with rfl | hx'
      · simp only
        rw [i2 f hn.1]
        exact ⟨h3, h4⟩
      · have hne : x.1 ≠ f := fun he => hn.1 (he ▸ List.mem_map_of_mem hx')
        have := i3 x hx'
        rwa [h2 x.1 hne] at this

example : Spec.goodValues [-1, 0, 1] := ⟨by decide, by simp⟩

/-- **C208 (violated).** It is false that the tuning does not make the residual larger: the minimum of the parabola is not checked. -/
theorem C208_residual_violated :
    ¬ ∀ (residual : ConeFields → ℝ) (g g' : ConeFields) (f : ConeField) (vals : List ℝ), Spec.goodValues vals → 0 ∈ vals →
      tuneGeometry residual g [(f, vals)] = some g' → residual g' ≤ residual g := by
  intro h
  have ha : ∀ (d : ℕ) (x : ℝ) (n : ℤ), x * 10 ^ d = n → around d x = x := by
    intro d x n hx
    unfold around
    simp only
    rw [hx, Int.floor_intCast, sub_self, if_pos (by norm_num), ← hx]
    field_simp
  let res : ConeFields → ℝ := fun g => if (g .phiDeg).val = -1 then 3 else if (g .phiDeg).val = 0 then 0 else
    if (g .phiDeg).val = 1 then 1 else 10
  let g : ConeFields := fun _ => .float 0
  have hv : ∀ x d, ((g.update .phiDeg (.float x) true (some d)) .phiDeg).val = around d x := by
    intro x d
    simp [ConeFields.update, PyNum.add, PyNum.around, PyNum.val, g]
  have hres : (g.tuningParams .phiDeg ([-1, 0, 1].map PyNum.float) true).map res = [3, 0, 1] := by
    simp only [ConeFields.tuningParams, List.map_cons, List.map_nil, res, hv]
    rw [ha 3 (-1) (-1000) (by norm_num), ha 3 0 0 (by norm_num), ha 3 1 1000 (by norm_num)]
    norm_num
  have ht : tuneGeometry res g [(.phiDeg, [-1, 0, 1])] = some (g.update .phiDeg (.float (1 / 4)) true (some 3)) := by
    have hfit : fitParabolaMin .linear (fun i => [-1, 0, 1].getD i 0) 3 (fun i => [3, 0, 1].getD i 0) 3 6 = some (1 / 4, -1 / 8) := by
      have ham : argmin (fun i => [3, 0, 1].getD i (0 : ℝ)) 3 = 1 := by
        unfold argmin
        simp [List.range_succ]
      have hst : fitStart (fun i => [3, 0, 1].getD i (0 : ℝ)) 3 = 0 := by unfold fitStart; rw [ham]; norm_num
      have hp : fittedParab .linear (fun i => [-1, 0, 1].getD i (0 : ℝ)) (fun i => [3, 0, 1].getD i (0 : ℝ)) 3 = ⟨0, -1, 2⟩ := by
        unfold fittedParab
        rw [hst]
        simp only [FitScale.toFit, parab3]
        norm_num
      unfold fitParabolaMin
      rw [if_neg (by norm_num)]
      simp only [hp, Parab.vertex]
      rw [if_neg (by norm_num), ha 6 (- -1 / (2 * 2)) 250000 (by norm_num), ha 6 (0 + - -1 / (2 * 2) * -1 / 2) (-125000) (by norm_num)]
      simp only [FitScale.fromFit]
      norm_num
    unfold tuneGeometry tuneParam
    rw [hres]
    simp only [List.length_cons, List.length_nil, zero_add, Nat.reduceAdd]
    rw [hfit]
    rfl
  have := h res g _ .phiDeg [-1, 0, 1] ⟨by decide, by simp⟩ (by simp) ht
  simp only [res, hv] at this
  rw [ha 3 (1 / 4) 250 (by norm_num)] at this
  simp [g, PyNum.val] at this
  norm_num at this

end Verif
