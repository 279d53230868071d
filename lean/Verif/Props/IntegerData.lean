import Verif.Model.IntegerData
import Verif.Lemmas.ProxGrad

/-!
# C260, C261, C262: numbers of integer types
-/

namespace Verif
open Classical NumType

variable {ν ι Q : Type}

/-! ## Specification -/

/-- A number is an integer. -/
def IsWhole (v : ℝ) : Prop := ∃ n : ℤ, v = n

/-- All the numbers of an attribute are integers. -/
def Attr.Whole : Attr ι → Prop
  | .scalar v => IsWhole v
  | .array v => ∀ i, IsWhole (v i)

/-- The types that hold all integers of their range: everything but truth values. -/
def NumType.Numeric (t : NumType) : Prop := t.rank ≠ 0

theorem trunc_whole {v : ℝ} (h : IsWhole v) : ConeBeam.trunc v = v := by
  obtain ⟨n, rfl⟩ := h
  unfold ConeBeam.trunc
  split <;> simp

theorem store_whole {t : NumType} (ht : t.Numeric) {v : ℝ} (h : t = .float ∨ IsWhole v) : t.store v = v := by
  cases t with
  | bool => exact absurd rfl ht
  | float => rfl
  | uint m => rcases h with h | h; · cases h
              exact trunc_whole h
  | int => rcases h with h | h; · cases h
           exact trunc_whole h

theorem map_store_whole {t : NumType} (ht : t.Numeric) {bg : Attr ι} (h : t = .float ∨ bg.Whole) : bg.map t.store = bg := by
  cases bg with
  | scalar v => simp only [Attr.map]; rw [store_whole ht (h.imp id id)]
  | array v =>
    simp only [Attr.map]; congr 1; funext i
    exact store_whole ht (h.imp id fun h => h i)

/-! ## C260: the background -/

theorem assignDataTyped_eq {t : NumType} (ht : t.Numeric) (term : DataTerm ι) (h : t = .float ∨ ∀ bg, term.background = some bg → bg.Whole)
    (data : Option (Attr ι)) (sigma : Attr ι) : assignDataTyped t term data sigma = term.assignData data sigma := by
  unfold assignDataTyped
  split
  · have : (term.assignData data sigma).background.map (Attr.map t.store) = (term.assignData data sigma).background := by
      show term.background.map _ = term.background
      cases hb : term.background with
      | none => rfl
      | some bg => simp only [Option.map_some]; rw [map_store_whole ht (h.imp id fun h => h bg hb)]
    simp only [this]
  · rfl

/-- **C260 (partial).** If every background value is an integer, or all the data ever assigned are floating point numbers, then after any history of assignments
of data of any numeric types the data term is the one of exact arithmetic: the types have no influence.
(Missing: fractional backgrounds with integer data, `C260_violated`.) -/
theorem C260_partial (term : DataTerm ι) (hist : List (NumType × Option (Attr ι) × Attr ι)) (hn : ∀ e ∈ hist, e.1.Numeric)
    (h : (∀ e ∈ hist, e.1 = .float) ∨ ∀ bg, term.background = some bg → bg.Whole) :
    hist.foldl (fun u e => assignDataTyped e.1 u e.2.1 e.2.2) term = hist.foldl (fun u e => u.assignData e.2.1 e.2.2) term := by
  induction hist generalizing term with
  | nil => rfl
  | cons e es ih =>
    simp only [List.foldl_cons]
    rw [assignDataTyped_eq (hn e (by simp)) term (h.imp (fun h => h e (by simp)) id)]
    exact ih _ (fun e' h' => hn e' (by simp [h'])) (h.imp (fun h e' h' => h e' (by simp [h'])) id)

/-- The hypotheses are met by a background of 3 counts and a history of 16 bit data followed by floating point data. -/
example : (∀ e ∈ ([(.uint 65536, some (.scalar 7), .scalar 1), (.float, some (.scalar (1 / 2)), .scalar 1)] : List (NumType × Option (Attr (Fin 1)) × Attr (Fin 1))),
      e.1.Numeric) ∧ ∀ bg, (DataTerm.new (.l2 : Kind (Fin 1)) (some (.scalar 3))).background = some bg → bg.Whole := by
  refine ⟨by intro e he; fin_cases he <;> simp [NumType.Numeric, rank], ?_⟩
  intro bg hb
  simp only [DataTerm.new, Option.some.injEq] at hb
  subst hb
  exact ⟨3, by norm_num⟩

/-- What the residual is in the integer types: the fractional part of the background is dropped — and stays dropped for floating point data that are assigned
afterwards. -/
theorem C260_what_happens [Fintype ι] (c : ℝ) (d d' p : Arr ι) (s s' : Attr ι) :
    let t := assignDataTyped .int (DataTerm.new .l2 (some (.scalar c))) (some (.array d)) s
    t.residual p none = (fun i => d i - (p i + ConeBeam.trunc c)) ∧
    (assignDataTyped .float t (some (.array d')) s').residual p none = fun i => d' i - (p i + ConeBeam.trunc c) := by
  constructor <;> rfl

/-- **C260 (violated).** "The residual of the data is the data minus the projection and the background, whatever the types of the data, now or before" is
false: with a background of one half and integer data equal to the projection plus nothing, the residual is zero instead of minus one half; and it stays so after
the integer data were replaced by floating point data. -/
theorem C260_violated :
    (¬ ∀ (t : NumType) (c : ℝ) (d p : Arr (Fin 1)) (_ : ∀ i, t.store (d i) = d i),
      (assignDataTyped t (DataTerm.new .l2 (some (.scalar c))) (some (.array d)) (.scalar 1)).residual p none = fun i => d i - (p i + c)) ∧
    ¬ ∀ (t : NumType) (c : ℝ) (d d' p : Arr (Fin 1)) (_ : ∀ i, t.store (d i) = d i),
      (assignDataTyped .float (assignDataTyped t (DataTerm.new .l2 (some (.scalar c))) (some (.array d)) (.scalar 1)) (some (.array d')) (.scalar 1)).residual p none
        = fun i => d' i - (p i + c) := by
  have ht : ConeBeam.trunc (1 / 2) = 0 := by
    unfold ConeBeam.trunc
    rw [if_pos (by norm_num)]
    have : ⌊(1 / 2 : ℝ)⌋ = 0 := by rw [Int.floor_eq_iff]; norm_num
    rw [this]; norm_num
  have h1 : ∀ i : Fin 1, NumType.int.store ((fun _ => (1 : ℝ)) i) = (1 : ℝ) := fun _ => trunc_whole ⟨1, by norm_num⟩
  constructor <;> intro h
  · have := h .int (1 / 2) (fun _ => 1) (fun _ => 1) h1
    rw [(C260_what_happens (1 / 2) (fun _ => 1) (fun _ => 1) (fun _ => 1) (.scalar 1) (.scalar 1)).1, ht] at this
    have := congrFun this 0
    norm_num at this
  · have := h .int (1 / 2) (fun _ => 1) (fun _ => 1) (fun _ => 1) h1
    rw [(C260_what_happens (1 / 2) (fun _ => 1) (fun _ => 1) (fun _ => 1) (.scalar 1) (.scalar 1)).2, ht] at this
    have := congrFun this 0
    norm_num at this

/-! ## C261: data, masks and volumes of integer types in the solvers -/

variable [Fintype ν] [Fintype ι]

/-- Integers of a data type are exact, and the background survives the assignment of the data. -/
def BackgroundFits (t : NumType) (S : Solver ν ι Q) : Prop := t = .float ∨ ∀ bg, S.term.background = some bg → bg.Whole

theorem castSolver_eq {t : NumType} (ht : t.Numeric) {S : Solver ν ι Q} (h : BackgroundFits t S) : castSolver t S = S := by
  have : castTerm t S.term = S.term := by
    unfold castTerm
    have : S.term.background.map (Attr.map t.store) = S.term.background := by
      cases hb : S.term.background with
      | none => rfl
      | some bg => simp only [Option.map_some]; rw [map_store_whole ht (h.imp id fun h => h bg hb)]
    rw [this]
  unfold castSolver
  rw [this]

theorem inPlace_float (t : NumType) : NumType.float.inPlaceOk t := by
  cases t <;> simp [inPlaceOk, promote, rank]

theorem onesOk_float {T : CallTypes} (h : T.b = .float) (m m' : Option (Arr ι)) : onesOk T m m' := by
  unfold onesOk
  split
  · trivial
  · rw [h]; exact inPlace_float _

/-- The masks of a call are of no higher type than the data: no test mask, and no data mask or one that is not above the data. -/
def MasksBelow (T : CallTypes) (a : Args ν ι) : Prop := a.bTestMask = none ∧ (a.bMask = none ∨ T.bMask.rank ≤ T.b.rank)

theorem onesOk_below {T : CallTypes} {a : Args ν ι} (h : MasksBelow T a) : onesOk T a.bMask a.bTestMask := by
  unfold onesOk maskType
  rw [h.1]
  cases hm : a.bMask with
  | none => trivial
  | some m =>
    rcases h.2 with h | h
    · rw [hm] at h; cases h
    · show T.b.inPlaceOk T.bMask
      simp [inPlaceOk, promote, h]

/-- **C261 (partial).** With floating point data, whatever the types of the masks (and, for PDHG and FISTA, of the initial volume), the solvers give what exact
arithmetic gives; so do SIRT, MLEM and the preconditioned FISTA with integer data, if the background is one of integers, there is no test mask, and the data mask is
of no higher type than the data.
(Missing: PDHG and un-preconditioned FISTA with integer data, fractional masks or test masks with integer data, integer initial volumes of SIRT and MLEM:
`C261_violated`.) -/
theorem C261_partial (T : CallTypes) (S : Solver ν ι Q) (A : Operator ν ι) (b : Arr ι) (a : Args ν ι) (pre : Bool) (rnd : Arr ι)
    (hn : T.b.Numeric) (hbg : BackgroundFits T.b S) :
    (T.b = .float → pdhgTyped T S A b a pre rnd = untyped (pdhg S A b a pre rnd) ∧ fistaTyped T S A b a pre rnd = untyped (fista S A b a pre rnd)) ∧
    ((T.b = .float ∨ MasksBelow T a) → (a.x0 = none ∨ T.x0 = .float) →
      sirtTyped T S A b a = untyped (sirt S A b a) ∧ mlemTyped T S A b a = untyped (mlem S A b a)) ∧
    (MasksBelow T a → diagonal A pre → fistaTyped T S A b a pre rnd = untyped (fista S A b a pre rnd)) := by
  have hc := castSolver_eq hn hbg
  have hsteps : T.b = .float → stepsOk T A a pre := by
    intro h
    unfold stepsOk
    split
    · exact onesOk_float h _ _
    · rw [h]; exact inPlace_float _
  refine ⟨fun h => ⟨?_, ?_⟩, fun h hx => ?_, fun h hd => ?_⟩
  · unfold pdhgTyped
    rw [if_neg (not_not.mpr (hsteps h)), if_neg (fun c => c.2 (h ▸ inPlace_float _)), hc]
  · unfold fistaTyped
    rw [if_neg (not_not.mpr (hsteps h)), hc]
  · have ho : onesOk T a.bMask a.bTestMask := h.elim (fun h => onesOk_float h _ _) onesOk_below
    have hx' : ¬ (a.x0.isSome ∧ a.iterations ≠ 0 ∧ ¬ T.x0.inPlaceOk .float) := by
      rintro ⟨h1, -, h2⟩
      rcases hx with hx | hx
      · rw [hx] at h1; cases h1
      · exact h2 (hx ▸ inPlace_float _)
    unfold sirtTyped mlemTyped
    rw [if_neg (not_not.mpr ho), if_neg hx', if_neg (not_not.mpr ho), if_neg hx', hc]
    exact ⟨rfl, rfl⟩
  · unfold fistaTyped
    have : stepsOk T A a pre := by unfold stepsOk; rw [if_pos hd]; exact onesOk_below h
    rw [if_neg (not_not.mpr this), hc]

/-- Unsigned data of 16 bits with a mask of truth values meet the hypotheses of the second and third part. -/
example : (NumType.uint 65536).Numeric ∧ MasksBelow (ν := Fin 1) { b := .uint 65536, bMask := .bool }
    { iterations := 3, bMask := some fun _ : Fin 2 => 1 } := by
  refine ⟨by simp [NumType.Numeric, rank], rfl, Or.inr ?_⟩
  simp [rank]

/-- An integer type of data. -/
def NumType.Integer (t : NumType) : Prop := t.rank < 3

theorem not_inPlace_float {t : NumType} (h : t.Integer) : ¬ t.inPlaceOk .float := by
  cases t <;> simp_all [inPlaceOk, promote, rank, NumType.Integer]

/-- **C261 (violated).** Numbers given as integers are refused where the same numbers given as floating point numbers are accepted. For all operators, data and
arguments:
* PDHG refuses every integer data set, if it is to do at least one iteration;
* FISTA refuses every integer data set without preconditioner (or if the operator has no `absolute`);
* SIRT, MLEM and FISTA refuse integer data with a data mask of floating point numbers;
* the cross-validation of integer data with a test mask of floating point numbers — such as those made by `create_random_test_mask` by default
  — is refused by SIRT and MLEM, and so is that of unsigned data with any test mask of truth values;
* SIRT and MLEM refuse every integer initial volume, if they are to do at least one iteration. -/
theorem C261_violated (T : CallTypes) (S : Solver ν ι Q) (A : Operator ν ι) (b : Arr ι) (a : Args ν ι) (pre : Bool) (rnd : Arr ι) :
    (T.b.Integer → a.iterations ≠ 0 → pdhgTyped T S A b a pre rnd = .error .typeError) ∧
    (T.b.Integer → ¬ diagonal A pre → fistaTyped T S A b a pre rnd = .error .typeError) ∧
    (T.b.Integer → a.bMask.isSome → T.bMask = .float →
      sirtTyped T S A b a = .error .typeError ∧ mlemTyped T S A b a = .error .typeError ∧ fistaTyped T S A b a pre rnd = .error .typeError) ∧
    (T.b.Integer → a.bTestMask.isSome → T.bTestMask = .float ∨ (T.bTestMask = .bool ∧ T.b.rank < 2) →
      sirtTyped T S A b a = .error .typeError ∧ mlemTyped T S A b a = .error .typeError) ∧
    (T.x0.Integer → a.x0.isSome → a.iterations ≠ 0 → sirtTyped T S A b a = .error .typeError ∧ mlemTyped T S A b a = .error .typeError) := by
  have hmask : T.b.Integer → a.bMask.isSome → T.bMask = .float → ¬ onesOk T a.bMask a.bTestMask := by
    intro hi hm hf ho
    unfold onesOk maskType at ho
    cases ht : a.bTestMask with
    | none =>
      rw [ht] at ho
      obtain ⟨m, hm⟩ := Option.isSome_iff_exists.mp hm
      rw [hm] at ho
      exact not_inPlace_float hi (hf ▸ ho)
    | some m' =>
      rw [ht] at ho
      simp only [hm, if_true, hf] at ho
      have : NumType.float.promote T.bTestMask.oneMinus = .float := by
        unfold promote; rw [if_pos]; cases T.bTestMask <;> simp [rank, oneMinus]
      rw [this] at ho
      exact not_inPlace_float hi ho
  have htest : T.b.Integer → a.bTestMask.isSome → T.bTestMask = .float ∨ (T.bTestMask = .bool ∧ T.b.rank < 2) → ¬ onesOk T a.bMask a.bTestMask := by
    intro hi hm hf ho
    obtain ⟨m', hm'⟩ := Option.isSome_iff_exists.mp hm
    unfold onesOk maskType at ho
    rw [hm'] at ho
    simp only at ho
    generalize (if a.bMask.isSome = true then T.bMask else T.b) = one at ho
    unfold NumType.Integer at hi
    rcases hf with hf | ⟨hf, hr⟩
    · rw [hf] at ho
      unfold inPlaceOk promote at ho
      revert ho hi
      cases T.b <;> cases one <;> simp [rank, oneMinus]
    · rw [hf] at ho
      unfold inPlaceOk promote at ho
      revert ho hi hr
      cases T.b <;> cases one <;> simp [rank, oneMinus]
  have hfista : ¬ onesOk T a.bMask a.bTestMask → T.b.Integer → ¬ stepsOk T A a pre := by
    intro ho hi
    unfold stepsOk
    split
    · exact ho
    · exact not_inPlace_float hi
  refine ⟨fun hi hn => ?_, fun hi hd => ?_, fun hi hm hf => ⟨?_, ?_, ?_⟩, fun hi hm hf => ⟨?_, ?_⟩, fun hx hs hn => ⟨?_, ?_⟩⟩
  · unfold pdhgTyped
    split
    · rfl
    · rw [if_pos ⟨hn, not_inPlace_float hi⟩]
  · unfold fistaTyped
    rw [if_pos]
    unfold stepsOk
    rw [if_neg hd]
    exact not_inPlace_float hi
  · unfold sirtTyped; rw [if_pos (hmask hi hm hf)]
  · unfold mlemTyped; rw [if_pos (hmask hi hm hf)]
  · unfold fistaTyped; rw [if_pos (hfista (hmask hi hm hf) hi)]
  · unfold sirtTyped; rw [if_pos (htest hi hm hf)]
  · unfold mlemTyped; rw [if_pos (htest hi hm hf)]
  · unfold sirtTyped
    split
    · rfl
    · rw [if_pos ⟨hs, hn, not_inPlace_float hx⟩]
  · unfold mlemTyped
    split
    · rfl
    · rw [if_pos ⟨hs, hn, not_inPlace_float hx⟩]

/-- **C261 (violated, PDHG).** For every matrix that is not zero and every data set, PDHG (with the diagonal step sizes and the least squares term, without
regularizer) returns a volume if the data are floating point numbers, and fails if the same numbers are integers. -/
theorem C261_pdhg_violated (M : ι → ν → ℝ) (hM : ∃ i j, M i j ≠ 0) (b : Arr ι) (iterations : ℕ) (hit : iterations ≠ 0) (rnd : Arr ι) (t : NumType) (ht : t.Integer) :
    let S : Solver ν ι Q := ⟨1, none, [], DataTerm.new .l2 none, DataTerm.new .l2 none, none⟩
    let a : Args ν ι := { iterations := iterations }
    (∃ r, pdhgTyped { b := .float } S (matrixOp M) b a true rnd = .ok r) ∧
    pdhgTyped { b := t } S (matrixOp M) b a true rnd = .error .typeError := by
  intro S a
  refine ⟨?_, (C261_violated _ S (matrixOp M) b a true _).1 ht hit⟩
  rw [((C261_partial { b := .float } S (matrixOp M) b a true rnd (by simp [NumType.Numeric, rank]) (Or.inl rfl)).1 rfl).1]
  obtain ⟨p, hp⟩ := matrix_scaling_ok (Q := Q) (M := M) 1 1 hM
  obtain ⟨r, hr⟩ := pdhg_runs (S := S) (A := matrixOp M) (b := b) (a := a) (pc := true) (rnd := rnd) (p := p) hp rfl
  exact ⟨r, by rw [hr]; rfl⟩

/-- **C261 (violated, SART).** SART refuses integer data with a data mask of floating point numbers, and every integer initial volume if it has anything to do. -/
theorem C261_sart_violated {na nu : ℕ} (T : CallTypes) (S : Solver ν (Fin na × Fin nu) Q) (A : AngleOp ν na nu) (b : Fin na × Fin nu → ℝ)
    (a : Args ν (Fin na × Fin nu)) (rows : List (Fin na)) :
    (T.b.Integer → a.bMask.isSome → T.bMask = .float → sartTyped T S A b a rows = .error .typeError) ∧
    (T.x0.Integer → a.x0.isSome → a.iterations ≠ 0 → rows ≠ [] → sartTyped T S A b a rows = .error .typeError) := by
  refine ⟨fun hi hm hf => ?_, fun hx hs hn hr => ?_⟩
  · unfold sartTyped
    rw [if_pos]
    obtain ⟨m, hm⟩ := Option.isSome_iff_exists.mp hm
    unfold onesOk maskType
    rw [hm]
    show ¬ T.b.inPlaceOk T.bMask
    rw [hf]
    exact not_inPlace_float hi
  · unfold sartTyped
    split
    · rfl
    · rw [if_pos ⟨hs, hn, hr, not_inPlace_float hx⟩]

/-! ## C262: the residual of SART -/

theorem sub_num {t : NumType} {v w : ℝ} (h : t.rank ≠ 1 ∨ w ≤ v) : t.sub v w = v - w := by
  cases t with
  | uint m => rcases h with h | h
              · exact absurd rfl h
              · simp [sub, not_lt.mpr h]
  | bool => rfl
  | int => rfl
  | float => rfl

/-- The projections of a volume fit in the type of the data: they are integers, or the data are floating point numbers; if the data are unsigned they are not
below the data (of any angle and pixel, as the residual of SART compares every angle with every pixel). -/
def ProjectionsFit {na nu : ℕ} (t : NumType) (A : AngleOp ν na nu) (b : Fin na × Fin nu → ℝ) (x : Arr ν) : Prop :=
  t = .float ∨ ((∀ k u, IsWhole (A.fwd k x u)) ∧ (t.rank ≠ 1 ∨ ∀ k u q, b q ≤ A.fwd k x u))

theorem sartResidual_fits {na nu : ℕ} {t : NumType} (ht : t.Numeric) {A : AngleOp ν na nu} {b : Fin na × Fin nu → ℝ} {x : Arr ν} (h : ProjectionsFit t A b x)
    (m : Option (Arr (Fin na × Fin nu))) : sartResidualNormTyped t A b m x = sartResidualNorm A b m x := by
  have h1 : ∀ k u q, t.sub (t.store (A.fwd k x u)) (b q) = A.fwd k x u - b q := by
    intro k u q
    rw [store_whole ht (h.imp id fun h => h.1 k u), sub_num]
    rcases h with h | h
    · left; rw [h]; simp [rank]
    · exact h.2.imp id fun h => h k u q
  unfold sartResidualNormTyped sartResidualNorm
  simp only [h1]

/-- **C262 (partial).** The residual of SART for data of a type is the one of exact arithmetic, if the data are floating point numbers, or if the projections are
integers (not below unsigned data); with floating point data the whole call is the one of exact arithmetic, for every mask, tolerance and floating point initial volume.
(Missing: fractional projections with integer data, projections below unsigned data, `C262_violated`.) -/
theorem C262_partial {na nu : ℕ} (t : NumType) (ht : t.Numeric) (A : AngleOp ν na nu) (b : Fin na × Fin nu → ℝ) :
    (∀ x m, ProjectionsFit t A b x → sartResidualNormTyped t A b m x = sartResidualNorm A b m x) ∧
    ∀ (T : CallTypes) (S : Solver ν (Fin na × Fin nu) Q) (a : Args ν (Fin na × Fin nu)) (rows : List (Fin na)), T.b = .float → T.x0 = .float →
      sartTyped T S A b a rows = untyped (sart S A b a rows) := by
  refine ⟨fun x m h => sartResidual_fits ht h m, fun T S a rows hb hx => ?_⟩
  have hres : sartResidualNormTyped (NumType.float) A b a.bMask = sartResidualNorm A b a.bMask :=
    funext fun x => sartResidual_fits (t := .float) (by simp [NumType.Numeric, rank]) (Or.inl rfl) _
  have hstep : sartStepTyped NumType.float A b a = sartStep A b a := by
    funext sigma tau rows tol ii s
    unfold sartStepTyped sartStep
    rw [hres]
    cases tol <;> rfl
  unfold sartTyped sart
  rw [if_neg (not_not.mpr (onesOk_float hb _ _)), if_neg (fun h => h.2.2.2 (hx ▸ inPlace_float _)), if_neg (by rw [hb]; simp [rank]), hb, hres, hstep]

/-- The hypothesis is met by the projection 4 of the volume 2 with the matrix (2) and unsigned data 3. -/
example : ProjectionsFit (NumType.uint 65536) (⟨fun _ x _ => 2 * x 0, fun _ y _ => 2 * y 0⟩ : AngleOp (Fin 1) 1 1) (fun _ => 3) (fun _ => 2) :=
  Or.inr ⟨fun _ _ => ⟨4, by norm_num⟩, Or.inr fun _ _ _ => by norm_num⟩

/-- **C262 (violated).** "The residual is the norm of the projections minus the data, whatever the type of the data" is false for one angle, one pixel and the
identity: the residual of integer data 0 for the volume 1/2 is 0 instead of 1/2 (so that every positive tolerance stops the iterations), and the residual of unsigned
data for a volume that is too low by one is the largest number of the type instead of 1 (so that no useful tolerance stops them). -/
theorem C262_violated :
    let A : AngleOp (Fin 1) 1 1 := ⟨fun _ x _ => x 0, fun _ y _ => y 0⟩
    (sartResidualNormTyped .int A (fun _ => 0) none (fun _ => 1 / 2) = 0 ∧ sartResidualNorm A (fun _ => 0) none (fun _ => 1 / 2) = 1 / 2) ∧
    ∀ (m n : ℕ), 0 < m → sartResidualNormTyped (.uint m) A (fun _ => n + 1) none (fun _ => n) = m - 1 ∧
      sartResidualNorm A (fun _ => (n : ℝ) + 1) none (fun _ => n) = 1 := by
  intro A
  have ht : ConeBeam.trunc (1 / 2) = 0 := by
    unfold ConeBeam.trunc
    rw [if_pos (by norm_num)]
    have : ⌊(1 / 2 : ℝ)⌋ = 0 := by rw [Int.floor_eq_iff]; norm_num
    rw [this]; norm_num
  refine ⟨⟨?_, ?_⟩, fun m n hm => ⟨?_, ?_⟩⟩
  · simp only [sartResidualNormTyped, A, dif_pos, Finset.univ_unique, Finset.sum_singleton, store, sub, ht, Option.getD_none]
    norm_num
  · simp only [sartResidualNorm, A, dif_pos, Finset.univ_unique, Finset.sum_singleton, Option.getD_none]
    rw [show (((1 : ℝ) / 2 - 0) * 1) = 1 / 2 by ring, Real.sqrt_sq (by norm_num)]
  · have h1 : ConeBeam.trunc (n : ℝ) = n := trunc_whole ⟨n, by simp⟩
    have h2 : (0 : ℝ) ≤ m - 1 := by have : (1 : ℝ) ≤ m := by exact_mod_cast hm
                                    linarith
    simp only [sartResidualNormTyped, A, dif_pos, Finset.univ_unique, Finset.sum_singleton, store, sub, h1, Option.getD_none]
    rw [if_pos (by linarith)]
    rw [show (((n : ℝ) - (n + 1) + m) * 1) = m - 1 by ring, Real.sqrt_sq h2]
  · simp only [sartResidualNorm, A, dif_pos, Finset.univ_unique, Finset.sum_singleton, Option.getD_none]
    rw [show (((n : ℝ) - (n + 1)) * 1) ^ 2 = 1 by ring, Real.sqrt_one]

/-! ## C263: denoising of integer images -/

/-- **C263 (partial).** The denoised floating point image is that of exact arithmetic.
(Missing: integer images, `C263_violated`.) -/
theorem C263_partial (d : Denoise ν Q) (rnd : Arr ν) (lam : ℝ) :
    denoiseTyped .float d rnd lam = (untyped (d.solverExec rnd (d.solverInit lam) none)).map (·.1) := by
  unfold denoiseTyped Denoise.solverExec
  rw [((C261_partial { b := .float, x0 := .float } (d.solverInit lam) d.op d.img (d.args none) true rnd (by simp [NumType.Numeric, rank]) (Or.inl rfl)).1 rfl).1]
  cases pdhg (d.solverInit lam) d.op d.img (d.args none) true rnd <;> rfl

/-- **C263 (violated).** No integer image can be denoised: for every image, blur, weights of the pixels, regularizer and positive number of iterations the call
fails, also where it gives an image for the same numbers in floating point (here: one pixel, no penalty). -/
theorem C263_violated :
    (∀ (d : Denoise ν Q) (t : NumType) (_ : t.Integer) (_ : d.iterations ≠ 0) (rnd : Arr ν) (lam : ℝ), denoiseTyped t d rnd lam = .error .typeError) ∧
    ∃ (d : Denoise (Fin 1) Unit) (rnd : Arr (Fin 1)), d.iterations ≠ 0 ∧ ∃ r, denoiseTyped .float d rnd 1 = .ok r := by
  constructor
  · intro d t ht hi rnd lam
    unfold denoiseTyped
    rw [(C261_violated { b := t, x0 := t } (d.solverInit lam) d.op d.img (d.args none) true rnd).1 ht hi]
    rfl
  · let r : Reg (Fin 1) Unit := ⟨fun _ _ => 0, (), fun _ _ => (), fun _ => (), fun _ => (fun _ => 0, ()), fun x _ => x⟩
    let d : Denoise (Fin 1) Unit := ⟨fun _ => 1, matrixOp fun _ _ => 1, denoiseTerm none, 1, fun _ => r, none, id⟩
    refine ⟨d, fun _ => 1, by simp [d], ?_⟩
    rw [C263_partial d]
    obtain ⟨p, hp⟩ := matrix_scaling_ok (Q := Unit) (M := fun (_ : Fin 1) (_ : Fin 1) => (1 : ℝ)) (95 / 100) (95 / 100) ⟨0, 0, by norm_num⟩
    have hs : pdhgScaling (d.solverInit 1) d.op (d.args none) true (fun _ => 1) = .ok p := by
      rw [← hp]
      simp only [pdhgScaling, d, matrixOp, Denoise.solverInit, Denoise.args, initBMasks, diagonalScaling, List.foldl, r, add_zero, if_true]
      congr
    obtain ⟨q, hq⟩ := pdhg_runs (S := d.solverInit 1) (A := d.op) (b := d.img) (a := d.args none) (pc := true) (rnd := fun _ => 1) (p := p) hs rfl
    refine ⟨q.1, ?_⟩
    unfold Denoise.solverExec
    rw [hq]
    rfl

end Verif
