import Verif.Model.TuningHelpers
import Verif.Props.ParamTuning

/-!
# Durations, performance meters, task functions, errors: C189-C193
-/

namespace Verif

/-! ## C189: durations -/

private theorem floor_mod (t : ℝ) (ht : 0 ≤ t) (m : ℕ) (hm : 0 < m) :
    t - (m : ℝ) * ⌊t / m⌋ = ((⌊t⌋ % m : ℤ) : ℝ) + Int.fract t ∧ ⌊t / m⌋ = ⌊t⌋ / m := by
  have hm' : (0 : ℝ) < m := by exact_mod_cast hm
  have h1 : ⌊t / m⌋ = ⌊t⌋ / m := by
    rw [Int.floor_div_natCast]
  refine ⟨?_, h1⟩
  rw [h1]
  have h2 : ((⌊t⌋ % m : ℤ) : ℝ) = ⌊t⌋ - m * ((⌊t⌋ / m : ℤ) : ℝ) := by
    have := Int.emod_add_mul_ediv ⌊t⌋ m
    have h3 : ((⌊t⌋ % m + m * (⌊t⌋ / m) : ℤ) : ℝ) = ⌊t⌋ := by rw [this]
    push_cast at h3 ⊢
    linarith
  rw [h2, Int.fract]
  ring

/-- The parts in terms of whole seconds and the fraction of a second. -/
private theorem parts_eq (t : ℝ) (ht : 0 ≤ t) :
    timeParts t = ((⌊t⌋ / 3600).toNat, (⌊t⌋ % 3600 / 60).toNat, (⌊t⌋ % 60).toNat, ⌊Int.fract t * 1000⌋.toNat) := by
  obtain ⟨h1, h2⟩ := floor_mod t ht 3600 (by norm_num)
  obtain ⟨h3, -⟩ := floor_mod t ht 60 (by norm_num)
  have hf := Int.fract_nonneg t
  have hf' := Int.fract_lt_one t
  push_cast at h1 h2 h3
  have h5 : ⌊((⌊t⌋ % 60 : ℤ) : ℝ) + Int.fract t⌋ = ⌊t⌋ % 60 := by
    rw [Int.floor_intCast_add, Int.floor_fract, add_zero]
  have h6 : ⌊(((⌊t⌋ % 3600 : ℤ) : ℝ) + Int.fract t) / 60⌋ = ⌊t⌋ % 3600 / 60 := by
    have := Int.floor_div_natCast (((⌊t⌋ % 3600 : ℤ) : ℝ) + Int.fract t) 60
    push_cast at this
    rw [this, Int.floor_intCast_add, Int.floor_fract, add_zero]
  simp only [timeParts]
  rw [h1, h2, h3, h5, h6, add_sub_cancel_left]

/-- **C189 (parts).** For every duration, the hours, minutes, seconds and milliseconds shown are the largest ones not above it: they are in
their ranges, and they add up to the duration rounded down to a millisecond. -/
theorem C189_parts (t : ℝ) (ht : 0 ≤ t) :
    let p := timeParts t
    p.2.1 < 60 ∧ p.2.2.1 < 60 ∧ p.2.2.2 < 1000 ∧
    (((p.1 * 3600 + p.2.1 * 60 + p.2.2.1) * 1000 + p.2.2.2 : ℕ) : ℤ) = ⌊t * 1000⌋ := by
  intro p
  have hp : p = _ := parts_eq t ht
  rw [hp]
  have h0 : 0 ≤ ⌊t⌋ := Int.floor_nonneg.2 ht
  have hf := Int.fract_nonneg t
  have hf' := Int.fract_lt_one t
  have hm : 0 ≤ ⌊Int.fract t * 1000⌋ := Int.floor_nonneg.2 (by positivity)
  have hm' : ⌊Int.fract t * 1000⌋ < 1000 := by
    rw [Int.floor_lt]; push_cast; linarith
  have hsum : ⌊t * 1000⌋ = ⌊t⌋ * 1000 + ⌊Int.fract t * 1000⌋ := by
    have : t * 1000 = ((⌊t⌋ * 1000 : ℤ) : ℝ) + Int.fract t * 1000 := by
      push_cast
      have := Int.floor_add_fract t
      nlinarith
    rw [this, Int.floor_intCast_add]
  rw [hsum]
  refine ⟨by dsimp only; omega, by dsimp only; omega, by dsimp only; omega, ?_⟩
  dsimp only
  push_cast
  rw [Int.toNat_of_nonneg (by omega), Int.toNat_of_nonneg (by omega), Int.toNat_of_nonneg (by omega), Int.toNat_of_nonneg hm]
  omega

private theorem digitChar_inj (a b : ℕ) (ha : a < 10) (hb : b < 10) (h : Nat.digitChar a = Nat.digitChar b) : a = b := by
  interval_cases a <;> interval_cases b <;> simp_all [Nat.digitChar]

/-- The value of a character. -/
private def charVal (c : Char) : ℕ := c.toNat - 48

private theorem charVal_digit (a : ℕ) (ha : a < 10) : charVal (Nat.digitChar a) = a := by
  interval_cases a <;> rfl

private theorem formatInt_val (w n : ℕ) : Nat.ofDigits 10 ((formatInt w n).reverse.map charVal) = n := by
  unfold formatInt
  simp only [List.reverse_append, List.reverse_replicate, List.map_append, List.map_replicate, List.reverse_reverse, ← List.map_reverse,
    List.map_map]
  have h : (Nat.digits 10 n).map (charVal ∘ Nat.digitChar) = Nat.digits 10 n := by
    conv_rhs => rw [← List.map_id (Nat.digits 10 n)]
    refine List.map_congr_left fun a ha => ?_
    exact charVal_digit a (Nat.digits_lt_base (by norm_num) ha)
  rw [h, Nat.ofDigits_append, Nat.ofDigits_digits]
  have : ∀ k, Nat.ofDigits 10 (List.replicate k (charVal '0')) = 0 := by
    intro k
    induction k with
    | zero => rfl
    | succ k ih => rw [List.replicate_succ, Nat.ofDigits_cons, ih]; rfl
  rw [this]; simp

private theorem formatInt_length (w n : ℕ) (h : n < 10 ^ w) : (formatInt w n).length = w := by
  unfold formatInt
  have : (Nat.digits 10 n).length ≤ w := by
    rw [Nat.digits_length_le_iff (by norm_num)]
    exact h
  simp only [List.length_append, List.length_replicate, List.length_map, List.length_reverse]
  omega

private theorem formatInt_inj {w a b : ℕ} (h : formatInt w a = formatInt w b) : a = b := by
  rw [← formatInt_val w a, ← formatInt_val w b, h]

/-- **C189 (string).** Two durations are shown by the same string if and only if they are equal when rounded down to milliseconds. -/
theorem C189_format (s t : ℝ) (hs : 0 ≤ s) (ht : 0 ≤ t) : formatTime s = formatTime t ↔ ⌊s * 1000⌋ = ⌊t * 1000⌋ := by
  obtain ⟨s1, s2, s3, s4⟩ := C189_parts s hs
  obtain ⟨t1, t2, t3, t4⟩ := C189_parts t ht
  constructor
  · intro h
    unfold formatTime at h
    dsimp only at h
    have hl3 : ∀ n < 1000, (formatInt 3 n).length = 3 := fun n hn => formatInt_length 3 n (by omega)
    have hl2 : ∀ n < 60, (formatInt 2 n).length = 2 := fun n hn => formatInt_length 2 n (by omega)
    obtain ⟨h, e4⟩ := List.append_inj' h (by rw [hl3 _ s3, hl3 _ t3])
    obtain ⟨h, -⟩ := List.append_inj' h rfl
    obtain ⟨h, e3⟩ := List.append_inj' h (by rw [hl2 _ s2, hl2 _ t2])
    obtain ⟨h, -⟩ := List.append_inj' h rfl
    obtain ⟨h, e2⟩ := List.append_inj' h (by rw [hl2 _ s1, hl2 _ t1])
    obtain ⟨e1, -⟩ := List.append_inj' h rfl
    rw [← s4, ← t4, formatInt_inj e1, formatInt_inj e2, formatInt_inj e3, formatInt_inj e4]
  · intro h
    have hp : timeParts s = timeParts t := by
      rw [← s4, ← t4] at h
      have h' : ((timeParts s).1 * 3600 + (timeParts s).2.1 * 60 + (timeParts s).2.2.1) * 1000 + (timeParts s).2.2.2 =
          ((timeParts t).1 * 3600 + (timeParts t).2.1 * 60 + (timeParts t).2.2.1) * 1000 + (timeParts t).2.2.2 := by exact_mod_cast h
      refine Prod.ext ?_ (Prod.ext ?_ (Prod.ext ?_ ?_)) <;> omega
    unfold formatTime
    rw [hp]

/-- One hour, two minutes, 3.0045 seconds. -/
example : String.ofList (formatTime 3723.0045) = "01:02:03.004" := by
  have hf : ⌊(3723.0045 : ℝ)⌋ = 3723 := by rw [Int.floor_eq_iff]; norm_num
  have hp := parts_eq 3723.0045 (by norm_num)
  have hfr : ⌊Int.fract (3723.0045 : ℝ) * 1000⌋ = 4 := by
    rw [Int.fract, hf, Int.floor_eq_iff]; norm_num
  rw [hf, hfr] at hp
  unfold formatTime
  rw [hp]
  have h : ((3723 : ℤ) / 3600).toNat = 1 ∧ ((3723 : ℤ) % 3600 / 60).toNat = 2 ∧ ((3723 : ℤ) % 60).toNat = 3 ∧ (4 : ℤ).toNat = 4 := by decide
  rw [h.1, h.2.1, h.2.2.1, h.2.2.2]
  simp only [formatInt]
  norm_num [Nat.digits]
  rfl

/-! ## C190: performance meters -/

/-- **C190 (sums).** Batches add up: associatively, with the empty batch as neutral element, and appending a task is adding the batch of that
task alone; after appending any list of tasks to the empty batch the processing and total times are the sum of the times of the tasks. -/
theorem C190_sums (a b c : PerfBatch) (t : PerfTask) (ts : List PerfTask) :
    (a.add b).add c = a.add (b.add c) ∧ a.add {} = a ∧ PerfBatch.add {} a = a ∧
    a.append t = a.add (PerfBatch.append {} t) ∧
    (let r := ts.foldl PerfBatch.append {}
     r.tasks = ts ∧ r.proc = (ts.map PerfTask.total).sum ∧ r.total = r.proc ∧ r.init = 0) := by
  refine ⟨?_, ?_, ?_, ?_, ?_⟩
  · simp only [PerfBatch.add, List.append_assoc]; congr 1 <;> ring
  · simp [PerfBatch.add]
  · simp [PerfBatch.add]
  · simp [PerfBatch.add, PerfBatch.append]
  · have key : ∀ (ts : List PerfTask) (b : PerfBatch),
        (ts.foldl PerfBatch.append b).tasks = b.tasks ++ ts ∧
        (ts.foldl PerfBatch.append b).proc = b.proc + (ts.map PerfTask.total).sum ∧
        (ts.foldl PerfBatch.append b).total = b.total + (ts.map PerfTask.total).sum ∧
        (ts.foldl PerfBatch.append b).init = b.init := by
      intro ts
      induction ts with
      | nil => intro b; simp
      | cons x ts ih =>
        intro b
        obtain ⟨h1, h2, h3, h4⟩ := ih (b.append x)
        refine ⟨?_, ?_, ?_, ?_⟩
        · rw [List.foldl_cons, h1]; simp [PerfBatch.append]
        · rw [List.foldl_cons, h2]; simp [PerfBatch.append]; ring
        · rw [List.foldl_cons, h3]; simp [PerfBatch.append]; ring
        · rw [List.foldl_cons, h4]; simp [PerfBatch.append]
    obtain ⟨h1, h2, h3, h4⟩ := key ts {}
    refine ⟨by simpa using h1, by simpa using h2, ?_, by simpa using h4⟩
    rw [h2, h3]

private theorem serial_sum (clock : ℕ → ℝ) (hc : Monotone clock) (n : ℕ) :
    0 ≤ ((serialPerf clock n).tasks.map PerfTask.total).sum ∧
    ((serialPerf clock n).tasks.map PerfTask.total).sum ≤ clock (2 + 3 * n) - clock 2 := by
  simp only [serialPerf, List.map_map]
  induction n with
  | zero => simp
  | succ n ih =>
    rw [List.range_succ, List.map_append, List.sum_append]
    simp only [List.map_cons, List.map_nil, List.sum_cons, List.sum_nil, Function.comp_def, perfTask] at ih ⊢
    have h1 := hc (show 2 + 3 * n ≤ 4 + 3 * n by omega)
    have h2 := hc (show 4 + 3 * n ≤ 2 + 3 * (n + 1) by omega)
    constructor <;> linarith [ih.1, ih.2]

/-- **C190 (serial batch).** For every monotone clock and every number of tasks: each task's time is the sum of its initialization and
execution, none of them negative; the batch's total time is the sum of its initialization and processing times; the tasks' times add up to no more
than the processing time, so that the ratio of task time to processing time shown for a serial batch is between 0 and 1. -/
theorem C190_serial (clock : ℕ → ℝ) (hc : Monotone clock) (n : ℕ) :
    let b := serialPerf clock n
    b.tasks.length = n ∧ (∀ t ∈ b.tasks, t.total = t.init + t.exec ∧ 0 ≤ t.init ∧ 0 ≤ t.exec) ∧ b.total = b.init + b.proc ∧ 0 ≤ b.init ∧
    (b.tasks.map PerfTask.total).sum ≤ b.proc ∧ ∀ r ∈ b.ratio, 0 ≤ r ∧ r ≤ 1 := by
  intro b
  obtain ⟨h0, h1⟩ := serial_sum clock hc n
  have h12 := hc (show 1 ≤ 2 by norm_num)
  have hle : (b.tasks.map PerfTask.total).sum ≤ b.proc := by
    refine h1.trans ?_
    simp only [b, serialPerf]
    linarith
  refine ⟨by simp [b, serialPerf], fun t ht => ?_, by simp [b, serialPerf], ?_, hle, fun r hr => ?_⟩
  · simp only [b, serialPerf, List.mem_map] at ht
    obtain ⟨i, -, rfl⟩ := ht
    simp only [perfTask]
    have h1 := hc (show 2 + 3 * i ≤ 3 + 3 * i by omega)
    have h2 := hc (show 3 + 3 * i ≤ 4 + 3 * i by omega)
    refine ⟨by ring, by linarith, by linarith⟩
  · have := hc (show 0 ≤ 1 by norm_num)
    simp only [b, serialPerf]
    linarith
  · unfold PerfBatch.ratio at hr
    split_ifs at hr with ht hp
    · simp at hr
    · simp only [Option.mem_some_iff] at hr
      subst hr
      have hl : (0 : ℝ) < b.tasks.length := by
        have := List.length_pos_of_ne_nil ht
        exact_mod_cast this
      rw [div_mul_cancel₀ _ hl.ne', div_le_one hp]
      exact ⟨div_nonneg h0 hp.le, hle⟩
    · simp at hr

/-- **C190 (parallel batch).** If the tasks run between the start and the end of the processing, on a number of workers such that each of
them runs one task at a time, the ratio shown is at most the number of workers. `worker` says which worker ran each task; the
readings of the tasks of one worker are in the order of their execution. -/
theorem C190_parallel (c0 c1 c2 : ℝ) (workers : ℕ) (h12 : c1 ≤ c2) (runs : Fin workers → List (ℝ × ℝ × ℝ))
    (hr : ∀ w, ∀ r ∈ runs w, c1 ≤ r.1 ∧ r.1 ≤ r.2.1 ∧ r.2.1 ≤ r.2.2 ∧ r.2.2 ≤ c2)
    (hseq : ∀ w, (runs w).Pairwise fun r s => r.2.2 ≤ s.1) (readings : List (ℝ × ℝ × ℝ))
    (hperm : readings.Perm (List.ofFn runs).flatten) :
    let b := parallelPerf c0 c1 c2 readings
    b.total = b.init + b.proc ∧ (∀ t ∈ b.tasks, t.total = t.init + t.exec) ∧
    (b.tasks.map PerfTask.total).sum ≤ workers * b.proc ∧ ∀ r ∈ b.ratio, r ≤ workers := by
  intro b
  have one : ∀ (l : List (ℝ × ℝ × ℝ)) (a : ℝ), a ≤ c2 → (∀ r ∈ l, a ≤ r.1 ∧ r.1 ≤ r.2.1 ∧ r.2.1 ≤ r.2.2 ∧ r.2.2 ≤ c2) →
      l.Pairwise (fun r s => r.2.2 ≤ s.1) → (l.map fun r => (perfTask r.1 r.2.1 r.2.2).total).sum ≤ c2 - a := by
    intro l
    induction l with
    | nil => intro a ha _ _; simpa using ha
    | cons x l ih =>
      intro a ha h hp
      rw [List.pairwise_cons] at hp
      obtain ⟨h1, h2, h3, h4⟩ := h x (by simp)
      have := ih x.2.2 h4 (fun r hr => ⟨hp.1 r hr, (h r (by simp [hr])).2⟩) hp.2
      rw [List.map_cons, List.sum_cons]
      simp only [perfTask] at this ⊢
      linarith
  have hsum : (b.tasks.map PerfTask.total).sum ≤ workers * b.proc := by
    simp only [b, parallelPerf, List.map_map]
    rw [(hperm.map _).sum_eq, List.map_flatten, List.sum_flatten, List.map_map, List.map_ofFn, List.sum_ofFn]
    calc _ ≤ ∑ _w : Fin workers, (c2 - c1) := Finset.sum_le_sum fun w _ => one (runs w) c1 h12 (hr w) (hseq w)
      _ = _ := by rw [Finset.sum_const, Finset.card_univ, Fintype.card_fin, nsmul_eq_mul]
  refine ⟨by simp [b, parallelPerf], fun t ht => ?_, hsum, fun r hr => ?_⟩
  · simp only [b, parallelPerf, List.mem_map] at ht
    obtain ⟨i, -, rfl⟩ := ht
    simp only [perfTask]; ring
  · unfold PerfBatch.ratio at hr
    split_ifs at hr with ht hp
    · simp at hr
    · simp only [Option.mem_some_iff] at hr
      subst hr
      have hl : (0 : ℝ) < b.tasks.length := by
        have := List.length_pos_of_ne_nil ht
        exact_mod_cast this
      rw [div_mul_cancel₀ _ hl.ne', div_le_iff₀ hp]
      exact hsum
    · simp at hr

/-- Three tasks, a clock that advances by one at each reading. -/
example : (serialPerf (fun k => k) 3).ratio = some (6 / 10) ∧ (serialPerf (fun k => k) 3).total = 11 := by
  constructor
  · rw [PerfBatch.ratio, if_neg (by simp [serialPerf, List.range, List.range.loop])]
    norm_num [serialPerf, perfTask, List.range, List.range.loop]
  · norm_num [serialPerf]

/-- Two workers, three tasks: the ratio exceeds one. -/
example : (parallelPerf 0 0 2 [(0, 0, 2), (0, 0, 1), (1, 1, 2)]).ratio = some 2 := by
  rw [PerfBatch.ratio, if_neg (by simp [parallelPerf])]
  norm_num [parallelPerf, perfTask]

/-! ## C191: keyword arguments of the task functions -/

/-- The property C191 in full: for every task initialization function that the helper accepts and that can be called with the hyper-parameter
and the additional keyword arguments, the reconstruction can be computed with those arguments; and there is such a function for every list
of keyword names. -/
def InitKeywords : Prop :=
  ∀ kws : List String, ∃ sig, initFunctionOk sig ∧ reconstructionCalls (some sig) [⟨"solver", .positionalOrKeyword, false⟩] kws []

private theorem one_param (p : PyParam) (k : String) (kws : List String) : ¬ accepts [p] 1 (k :: kws) := by
  intro h
  obtain ⟨h1, h2, h3⟩ := h
  obtain ⟨h2, h2'⟩ := h2 k (by simp)
  cases hk : p.kind <;> simp [hk] at h1 h2 h2'

/-- C191 is false: no function accepted as task initialization function can take any additional keyword argument. -/
theorem C191_init_keywords_violated : ¬ InitKeywords ∧
    ∀ sig exec initKws execKws, initFunctionOk sig → initKws ≠ [] → ¬ reconstructionCalls (some sig) exec initKws execKws := by
  have key : ∀ sig exec initKws execKws, initFunctionOk sig → initKws ≠ [] → ¬ reconstructionCalls (some sig) exec initKws execKws := by
    intro sig exec initKws execKws hs hk h
    obtain ⟨p, rfl⟩ := List.length_eq_one_iff.1 hs
    obtain ⟨k, kws, rfl⟩ := List.exists_cons_of_ne_nil hk
    exact one_param p k kws h.1
  refine ⟨fun h => ?_, key⟩
  obtain ⟨sig, h1, h2⟩ := h ["x"]
  exact key sig _ ["x"] [] h1 (by simp) h2

/-- **C191 (partial).** Without additional keyword arguments, the calls go through for every initialization function of one positional
parameter; an execution function of one positional parameter and keyword parameters takes exactly the keyword arguments among their names (all of them
if it has a `**` parameter). What is missing: keyword arguments of the initialization function, which always fail. -/
theorem C191_keywords_partial (p s : PyParam) (ps : List PyParam) (kws : List String)
    (hp : p.kind = .positionalOnly ∨ p.kind = .positionalOrKeyword ∨ p.kind = .varPositional)
    (hs : s.kind = .positionalOrKeyword) (hps : ∀ q ∈ ps, q.kind = .keywordOnly ∧ q.default = true) (hns : s.name ∉ kws) :
    (initFunctionOk [p] ∧ execFunctionOk (s :: ps) ∧ ¬ execFunctionOk [] ∧ ∀ q, ¬ initFunctionOk (p :: q :: ps)) ∧
    (reconstructionCalls (some [p]) (s :: ps) [] kws ↔ ∀ k ∈ kws, k ∈ ps.map PyParam.name) ∧
    (reconstructionCalls none (s :: ps) [] kws ↔ ∀ k ∈ kws, k ∈ ps.map PyParam.name) ∧
    ∀ q : PyParam, q.kind = .varKeyword → reconstructionCalls none (s :: (ps ++ [q])) [] kws := by
  have hinit : accepts [p] 1 [] := by
    rcases hp with h | h | h <;> simp [accepts, h]
  have hf1 : ps.filter (fun p => decide (p.kind = .positionalOnly ∨ p.kind = .positionalOrKeyword)) = [] := by
    rw [List.filter_eq_nil_iff]
    intro q hq
    simp [(hps q hq).1]
  have hf2 : ps.filter (fun p => decide (p.kind = .keywordOnly)) = ps := by
    rw [List.filter_eq_self]
    intro q hq
    simp [(hps q hq).1]
  have hexec : accepts (s :: ps) 1 kws ↔ ∀ k ∈ kws, k ∈ ps.map PyParam.name := by
    unfold accepts
    simp only [List.filter_cons, hs, reduceCtorEq, or_true, decide_true, if_true, hf1, decide_false, Bool.false_eq_true, if_false, hf2,
      List.take_succ_cons, List.take_nil, List.drop_succ_cons, List.drop_nil, List.filter_nil, List.nil_append, List.length_cons,
      List.length_nil, zero_add, le_refl, true_or, true_and]
    constructor
    · rintro ⟨h, -⟩ k hk
      obtain ⟨h1 | h1, -⟩ := h k hk
      · obtain ⟨q, hq, rfl⟩ := h1
        exact List.mem_map.2 ⟨q, hq, rfl⟩
      · obtain ⟨q, hq, hk⟩ := h1
        rcases List.mem_cons.1 hq with rfl | hq
        · rw [hs] at hk; cases hk
        · rw [(hps q hq).1] at hk; cases hk
    · intro h
      refine ⟨fun k hk => ⟨?_, ?_⟩, fun q hq hd => ?_⟩
      · left
        obtain ⟨q, hq, rfl⟩ := List.mem_map.1 (h k hk)
        exact ⟨q, hq, rfl⟩
      · intro q hq _ hqn
        simp only [List.mem_singleton] at hq
        subst hq
        subst hqn
        exact hns hk
      · rw [(hps q hq).2] at hd; cases hd
  refine ⟨by simp [initFunctionOk, execFunctionOk], ?_, hexec, fun q hq => ?_⟩
  · simp only [reconstructionCalls, hinit, true_and]
    exact hexec
  · simp only [reconstructionCalls, accepts]
    simp only [List.filter_cons, List.filter_append, hs, reduceCtorEq, or_true, decide_true, if_true, hf1, decide_false, Bool.false_eq_true,
      if_false, hf2, hq, or_self, List.filter_nil, List.append_nil,
      List.take_succ_cons, List.take_nil, List.drop_succ_cons, List.drop_nil, List.nil_append, List.length_cons,
      List.length_nil, zero_add, le_refl, true_or, true_and]
    refine ⟨fun k hk => ⟨Or.inr ⟨q, by simp, hq⟩, ?_⟩, fun r hr hd => ?_⟩
    · intro r hr _ hn
      simp only [List.mem_singleton] at hr
      subst hr
      subst hn
      exact hns hk
    · rw [(hps r hr).2] at hd; cases hd

example : reconstructionCalls (some [⟨"reg_weight", .positionalOrKeyword, false⟩])
    [⟨"solver", .positionalOrKeyword, false⟩, ⟨"b_test_mask", .keywordOnly, true⟩] [] ["b_test_mask"] :=
  (C191_keywords_partial _ _ [⟨"b_test_mask", .keywordOnly, true⟩] _ (by simp) rfl (by simp) (by simp)).2.1.2 (by simp)

/-! ## C192: reconstruction errors and L-curves -/

/-- The property C192 in full: whether or not the errors are plotted, `compute_reconstruction_error` returns them. -/
def ErrorsReturned : Prop :=
  ∀ (pe : ParallelEval) (task : Task ℝ (Arr (Fin 1))) (hp : List ℝ) (order : List ℕ) (truth : Arr (Fin 1)) (plot : Bool),
    order.Perm (List.range hp.length) → (∀ h, ∃ r, task h = .ok r) → ∃ e, reconstructionError pe task hp order truth plot = .ok e

/-- C192 is false: with `plot_result` the call raises. -/
theorem C192_errors_violated : ¬ ErrorsReturned := by
  intro h
  obtain ⟨e, he⟩ := h (.threads 0) (fun _ => .ok fun _ => 0) [] [] (fun _ => 0) true (by simp) (fun _ => ⟨_, rfl⟩)
  simp [reconstructionError, processHpVals, serialCompute, Except.map] at he

/-- **C192 (partial).** Without plotting: for every number of threads or executor and every order of completion, the errors are, in the order of
the hyper-parameter values, the sum of the absolute differences and the sum of the squared differences of each
reconstruction to the truth — zero exactly where they are equal; and the loss values of the L-curve are those of the reconstructions in the same order,
which are returned with them. What is missing: `plot_result=True`, with which the errors are never returned. -/
theorem C192_errors_partial {V H R : Type} [Fintype V] (pe : ParallelEval) (hp : List H) (order : List ℕ)
    (ho : order.Perm (List.range hp.length)) :
    (∀ (task : Task H (Arr V)) (truth : Arr V) (rec' : H → Arr V), (∀ h ∈ hp, task h = .ok (rec' h)) →
      reconstructionError pe task hp order truth false =
        .ok (hp.map fun h => ∑ j, |truth j - rec' h j|, hp.map fun h => ∑ j, (truth j - rec' h j) ^ 2)) ∧
    (∀ (task : Task H R) (loss : R → ℝ) (rec' : H → R), (∀ h ∈ hp, task h = .ok (rec' h)) →
      lcurveLosses pe task hp order loss = .ok (hp.map fun h => loss (rec' h), hp.map fun h => some (rec' h))) ∧
    (∀ x y : Arr V, ((recErrors x y).1 = 0 ↔ x = y) ∧ ((recErrors x y).2 = 0 ↔ x = y)) := by
  have key : ∀ {R : Type} (task : Task H R) (rec' : H → R), (∀ h ∈ hp, task h = .ok (rec' h)) →
      processHpVals pe task hp order = .ok (hp.map fun h => some (rec' h)) := by
    intro R task rec' h
    refine ((C43_parallel_eq_serial pe task hp order ho).2.1 _).2 ⟨by simp, fun i x hx => ⟨rec' x, h x (List.mem_of_getElem? hx), ?_⟩⟩
    rw [List.getElem?_map, hx]; rfl
  have hsq : ∀ x y : Arr V, Real.sqrt (∑ j, |x j - y j| ^ 2) ^ 2 = ∑ j, (x j - y j) ^ 2 := by
    intro x y
    rw [Real.sq_sqrt (Finset.sum_nonneg fun j _ => by positivity)]
    exact Finset.sum_congr rfl fun j _ => sq_abs _
  refine ⟨fun task truth rec' h => ?_, fun task loss rec' h => ?_, fun x y => ⟨?_, ?_⟩⟩
  · unfold reconstructionError
    rw [key task rec' h]
    simp only [Bool.false_eq_true, if_false, List.map_map, Function.comp_def, Option.elim, recErrors, hsq]
  · unfold lcurveLosses
    rw [key task rec' h]
    simp only [List.map_map, Function.comp_def, Option.elim]
  · simp only [recErrors]
    rw [Finset.sum_eq_zero_iff_of_nonneg fun j _ => abs_nonneg _]
    simp [sub_eq_zero, funext_iff]
  · simp only [recErrors, hsq]
    rw [Finset.sum_eq_zero_iff_of_nonneg fun j _ => sq_nonneg _]
    simp [sub_eq_zero, funext_iff]

example : reconstructionError .executor (fun h : ℝ => .ok fun _ : Fin 2 => h) [1, 4] [1, 0] (fun _ => 2) false =
    .ok ([2, 4], [2, 8]) := by
  have := (C192_errors_partial (V := Fin 2) (R := ℝ) .executor [(1 : ℝ), 4] [1, 0] (by decide)).1 (fun h => .ok fun _ => h) (fun _ => 2)
    (fun h _ => h) (fun _ _ => rfl)
  rw [this]
  norm_num

/-! ## C193: external executors -/

/-- The property C193 in full: a batch that fails does not prevent later batches on the same executor. -/
def ExecutorSurvives : Prop :=
  ∀ (t1 t2 : Task ℝ ℝ) (hp : List ℝ) (order : List ℕ), order.Perm (List.range hp.length) → (∀ h ∈ hp, ∃ r, t2 h = .ok r) →
    ∃ r, (executorCompute t2 hp order (executorCompute t1 hp order ⟨true⟩).2).1 = .ok r

/-- C193 is false: one failing task shuts the caller's executor down. -/
theorem C193_executor_violated : ¬ ExecutorSurvives := by
  intro h
  obtain ⟨r, hr⟩ := h (fun _ => .error "ValueError") (fun x => .ok x) [1] [0] (by simp) (fun x _ => ⟨x, rfl⟩)
  simp [executorCompute, parallelCompute, parallelLoop] at hr

/-- **C193 (partial).** The executor stays usable exactly as long as no batch fails: any sequence of successful batches leaves it
alive, and a batch on an executor that is alive gives the same results as a serial evaluation. What is missing: after a failing batch
every non-empty batch on that executor fails. -/
theorem C193_executor_partial {H R : Type} (task : Task H R) (hp : List H) (order : List ℕ) (ho : order.Perm (List.range hp.length)) :
    (∀ l, processHpVals (.threads 0) task hp [] = .ok l → executorCompute task hp order ⟨true⟩ = (.ok l, ⟨true⟩)) ∧
    (∀ (batches : List (Task H R × List H × List ℕ)),
      (∀ b ∈ batches, b.2.2.Perm (List.range b.2.1.length) ∧ ∀ h ∈ b.2.1, ∃ r, b.1 h = .ok r) →
      batches.foldl (fun (ex : Executor) b => (executorCompute b.1 b.2.1 b.2.2 ex).2) ⟨true⟩ = ⟨true⟩) ∧
    ((∃ h ∈ hp, ∃ e, task h = .error e) → ∀ (task' : Task H R) hp' order', hp' ≠ [] →
      ∃ e, (executorCompute task' hp' order' (executorCompute task hp order ⟨true⟩).2).1 = .error e) ∧
    ∀ ex, executorCompute task [] [] ex = (.ok [], ex) := by
  have exec : ∀ (task : Task H R) hp order, executorCompute task hp order ⟨true⟩ =
      match parallelCompute task hp order with
      | .error e => (.error e, ⟨false⟩)
      | .ok r => (.ok r, ⟨true⟩) := by
    intro task hp order
    simp only [executorCompute, Bool.true_eq_false, false_and, if_false]
    cases parallelCompute task hp order <;> rfl
  refine ⟨fun l hl => ?_, fun batches hb => ?_, fun hbad task' hp' order' hne => ?_, fun ex => by
    simp only [executorCompute, ne_eq, not_true_eq_false, and_false, if_false]; rfl⟩
  · have := (C43_parallel_eq_serial .executor task hp order ho).1 l hl
    rw [exec]
    simp only [processHpVals] at this
    rw [this]
  · induction batches with
    | nil => rfl
    | cons b batches ih =>
      rw [List.foldl_cons]
      obtain ⟨hp1, hp2⟩ := hb b (by simp)
      have h1 : ∃ r, parallelCompute b.1 b.2.1 b.2.2 = .ok r := by
        have h2 := C43_parallel_eq_serial .executor b.1 b.2.1 b.2.2 hp1
        refine ⟨b.2.1.map fun h => (b.1 h).toOption, (h2.2.1 _).2 ⟨by simp, fun i x hx => ?_⟩⟩
        obtain ⟨r, hr⟩ := hp2 x (List.mem_of_getElem? hx)
        refine ⟨r, hr, ?_⟩
        rw [List.getElem?_map, hx, Option.map_some, hr]; rfl
      obtain ⟨r, hr⟩ := h1
      rw [exec, hr]
      exact ih fun c hc => hb c (by simp [hc])
  · obtain ⟨e, he, -⟩ := (C43_parallel_eq_serial .executor task hp order ho).2.2 hbad
    simp only [processHpVals] at he
    rw [exec, he]
    simp [executorCompute, hne]

example : executorCompute (fun x : ℝ => .ok (x + 1)) [1, 2] [1, 0] ⟨true⟩ = (.ok [some (1 + 1), some (2 + 1)], ⟨true⟩) :=
  (C193_executor_partial _ _ _ (by decide)).1 _ rfl

end Verif
