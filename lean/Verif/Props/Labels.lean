import Verif.Model.Labels
import Verif.Props.SolversConv

/-! # C253, C254: the label of a run, and constraints with array limits -/

namespace Verif
open Classical Labels

variable {ν ι Q : Type} [Fintype ν] [Fintype ι]

/-- `t` occurs in `s`. -/
def Mentions (s t : String) : Prop := t.toList <:+: s.toList

/-- A label that can be printed. -/
def Printable (r : RegLabel ν) : Prop := ∀ n v, r ≠ .limit n (.array v)

omit [Fintype ν] in
private theorem regInfo_ok (fm : Fmt) {r : RegLabel ν} (h : Printable r) : ∃ s, regInfo fm r = .ok s := by
  cases r with
  | base n w => exact ⟨_, rfl⟩
  | wavelet n wl l w => exact ⟨_, rfl⟩
  | median n s w => exact ⟨_, rfl⟩
  | limit n l =>
    cases l with
    | scalar v => exact ⟨_, rfl⟩
    | array v => exact absurd rfl (h n v)

omit [Fintype ν] in
private theorem regsInfo_ok (fm : Fmt) {regs : List (RegLabel ν)} (h : ∀ r ∈ regs, Printable r) :
    ∃ s, regsInfo fm regs = .ok s ∧ ∀ r ∈ regs, ∃ t, regInfo fm r = .ok t ∧ Mentions s t.toUpper := by
  induction regs with
  | nil => exact ⟨_, rfl, by simp⟩
  | cons r l ih =>
    obtain ⟨t, ht⟩ := regInfo_ok fm (h r (by simp))
    obtain ⟨s, hs, hm⟩ := ih fun r hr => h r (by simp [hr])
    refine ⟨"-" ++ t.toUpper ++ s, ?_, fun r' hr' => ?_⟩
    · simp [regsInfo, ht, hs, bind, Except.bind]
    · rcases List.mem_cons.1 hr' with e | e
      · subst e
        exact ⟨t, ht, ⟨"-".toList, s.toList, by simp⟩⟩
      · obtain ⟨t', ht', hm'⟩ := hm r' e
        refine ⟨t', ht', ?_⟩
        obtain ⟨p, q, hpq⟩ := hm'
        exact ⟨("-" ++ t.toUpper).toList ++ p, q, by simp [← hpq]⟩

/-- The label `s` names the data term: its class and, if it has one, its background (a single number in full). -/
def NamesTerm (fm : Fmt) (t : DataTerm ι) (s : String) : Prop :=
  Mentions s (kindName t.kind) ∧ (∀ v, t.background = some (.scalar v) → Mentions s (kindName t.kind ++ "(B:" ++ fm.g v ++ ")")) ∧
  (∀ v, t.background = some (.array v) → Mentions s (kindName t.kind ++ "(B:<array>)"))

omit [Fintype ι] in
private theorem namesTerm (fm : Fmt) (t : DataTerm ι) (p q : String) : NamesTerm fm t (p ++ termInfo fm t ++ q) := by
  unfold NamesTerm termInfo
  refine ⟨⟨p.toList, ?_⟩, fun v hv => ⟨p.toList, q.toList, by simp [hv]⟩, fun v hv => ⟨p.toList, q.toList, by simp [hv]⟩⟩
  rcases t.background with _ | v | v
  · exact ⟨q.toList, by simp⟩
  · exact ⟨("(B:" ++ fm.g v ++ ")" ++ q).toList, by simp⟩
  · exact ⟨("(B:<array>)" ++ q).toList, by simp⟩

/-- The label mentions solver (at the start), data term and regularizers. -/
private theorem iterative_ok (fm : Fmt) (name : String) (t : DataTerm ι) {regs : List (RegLabel ν)} (h : ∀ r ∈ regs, Printable r) :
    ∃ s, iterativeInfo fm name t regs = .ok s ∧ name.toList <+: s.toList ∧ NamesTerm fm t s ∧
      ∀ r ∈ regs, ∃ u, regInfo fm r = .ok u ∧ Mentions s u.toUpper := by
  obtain ⟨s, hs, hm⟩ := regsInfo_ok fm h
  refine ⟨name ++ "-" ++ termInfo fm t ++ s, by simp [iterativeInfo, hs, bind, Except.bind], ⟨("-" ++ termInfo fm t ++ s).toList, by simp⟩,
    namesTerm fm t _ _, fun r hr => ?_⟩
  obtain ⟨u, hu, p, q, hpq⟩ := hm r hr
  exact ⟨u, hu, (name ++ "-" ++ termInfo fm t).toList ++ p, q, by simp [← hpq]⟩

/-- C253: the result of SIRT, PDHG and FISTA (regularizers without array limits) carries a label that starts with the name of the solver and mentions the data term
and every regularizer with its weight or limit.
Missing: MLEM without background, see `C253_mlem_violated`; array limits, see C254. -/
theorem C253_label_partial (fm : Fmt) {labels : List (RegLabel ν)} (h : ∀ r ∈ labels, Printable r) (S : Solver ν ι Q) (A : Operator ν ι) (b : Arr ι) (a : Args ν ι)
    (pc : Bool) (rnd : Arr ι) {x : Arr ν} {s : String} :
    (sirtCall fm labels S A b a = .ok (x, s) → "SIRT".toList <+: s.toList ∧ NamesTerm fm S.term s ∧
      ∀ r ∈ labels, ∃ u, regInfo fm r = .ok u ∧ Mentions s u.toUpper) ∧
    (pdhgCall fm labels S A b a pc rnd = .ok (x, s) → "PDHG".toList <+: s.toList ∧ NamesTerm fm S.term s ∧
      ∀ r ∈ labels, ∃ u, regInfo fm r = .ok u ∧ Mentions s u.toUpper) ∧
    (fistaCall fm labels S A b a pc rnd = .ok (x, s) → "FISTA".toList <+: s.toList ∧ NamesTerm fm S.term s ∧
      ∀ r ∈ labels, ∃ u, regInfo fm r = .ok u ∧ Mentions s u.toUpper) := by
  refine ⟨fun hc => ?_, fun hc => ?_, fun hc => ?_⟩
  · obtain ⟨s', hs, hp⟩ := iterative_ok fm "SIRT" S.term h
    simp only [sirtCall, hs, bind, Except.bind] at hc
    split at hc
    · cases hc
    · cases hc; exact hp
  · obtain ⟨s', hs, hp⟩ := iterative_ok fm "PDHG" S.term h
    simp only [pdhgCall, hs, bind, Except.bind] at hc
    split at hc
    · cases hc
    · cases hc; exact hp
  · obtain ⟨s', hs, hp⟩ := iterative_ok fm "FISTA" S.term h
    simp only [fistaCall, hs, bind, Except.bind] at hc
    split at hc
    · cases hc
    · cases hc; exact hp

/-- C253 is false for MLEM: every run without background has the empty label, so that its results cannot be told from anything. -/
theorem C253_mlem_violated (fm : Fmt) (S : Solver ν ι Q) (hbg : S.term.background = none) (A : Operator ν ι) (b : Arr ι) (a : Args ν ι) {x : Arr ν} {s : String}
    (h : mlemCall fm S A b a = .ok (x, s)) : s = "" := by
  have e : mlemInfo fm S.term = .ok "" := by unfold mlemInfo; rw [hbg]
  simp only [mlemCall, e, bind, Except.bind] at h
  split at h
  · cases h
  · cases h; rfl

/-- C253, MLEM with a scalar background: named, with the background. -/
theorem C253_mlem_background_partial (fm : Fmt) (S : Solver ν ι Q) {v : ℝ} (hbg : S.term.background = some (.scalar v)) (A : Operator ν ι) (b : Arr ι) (a : Args ν ι)
    {x : Arr ν} {s : String} (h : mlemCall fm S A b a = .ok (x, s)) : "MLEM".toList <+: s.toList ∧ Mentions s (fm.g v) := by
  have e : mlemInfo fm S.term = .ok ("MLEM" ++ "(B:" ++ fm.g v ++ ")") := by unfold mlemInfo; rw [hbg]
  simp only [mlemCall, e, bind, Except.bind] at h
  split at h
  · cases h
  · cases h
    exact ⟨⟨("(B:" ++ fm.g v ++ ")").toList, by simp⟩, ⟨("MLEM" ++ "(B:").toList, ")".toList, by simp⟩⟩

/-- C253, FBP: named, and a filter given by (any spelling of) its name or as an object is mentioned. -/
theorem C253_fbp_label : (∀ f, "FBP".toList <+: (fbpInfo f).toList) ∧ (∀ n : String, Mentions (fbpInfo (.name n)) n.toLower.toUpper) ∧
    ∀ c : String, Mentions (fbpInfo (.obj c)) c.toUpper := by
  refine ⟨fun f => ?_, fun n => ⟨("FBP" ++ "(F:").toList, ")".toList, by simp [fbpInfo]⟩, fun c => ⟨("FBP" ++ "(F:").toList, ")".toList, by simp [fbpInfo]⟩⟩
  cases f with
  | name n => exact ⟨("(F:" ++ n.toLower.toUpper ++ ")").toList, by simp [fbpInfo]⟩
  | array => exact ⟨("(F:" ++ "FilterCustom".toUpper ++ ")").toList, by simp [fbpInfo]⟩
  | obj c => exact ⟨("(F:" ++ c.toUpper ++ ")").toList, by simp [fbpInfo]⟩

omit [Fintype ν] in
private theorem regsInfo_err (fm : Fmt) {regs : List (RegLabel ν)} {n : String} {v : Arr ν} (h : RegLabel.limit n (.array v) ∈ regs) :
    regsInfo fm regs = .error .formatError := by
  induction regs with
  | nil => cases h
  | cons r l ih =>
    have hr : ∀ e, regInfo fm r = .error e → e = .formatError := by
      intro e he
      cases r with
      | limit n l => cases l <;> cases he; rfl
      | _ => cases he
    rcases hreg : regInfo fm r with e | s
    · rw [hr e hreg] at hreg
      simp [regsInfo, hreg, bind, Except.bind]
    · rcases List.mem_cons.1 h with e | e
      · rw [← e] at hreg; cases hreg
      · simp [regsInfo, hreg, ih e, bind, Except.bind]

/-- C254 is false: with a limit constraint whose limit is an array, as its documentation offers, SIRT, PDHG and FISTA raise `TypeError` while composing the label of the run,
for every operator, data and options. -/
theorem C254_array_limit_violated (fm : Fmt) {labels : List (RegLabel ν)} {n : String} {v : Arr ν} (h : RegLabel.limit n (.array v) ∈ labels) (S : Solver ν ι Q)
    (A : Operator ν ι) (b : Arr ι) (a : Args ν ι) (pc : Bool) (rnd : Arr ι) :
    sirtCall fm labels S A b a = .error .formatError ∧ pdhgCall fm labels S A b a pc rnd = .error .formatError ∧
      fistaCall fm labels S A b a pc rnd = .error .formatError := by
  have := regsInfo_err fm h
  refine ⟨?_, ?_, ?_⟩
  · simp [sirtCall, iterativeInfo, this, bind, Except.bind]
  · simp [pdhgCall, iterativeInfo, this, bind, Except.bind]
  · simp [fistaCall, iterativeInfo, this, bind, Except.bind]

/-- C254, what holds: with single-number limits (and all other regularizers) the label never makes a call fail: the call returns the volume that the
iterations give, or their error. -/
theorem C254_scalar_limits_partial (fm : Fmt) {labels : List (RegLabel ν)} (h : ∀ r ∈ labels, Printable r) (S : Solver ν ι Q) (A : Operator ν ι) (b : Arr ι) (a : Args ν ι)
    (pc : Bool) (rnd : Arr ι) :
    (sirtCall fm labels S A b a).map (·.1) = (sirt S A b a).map (·.1) ∧ (pdhgCall fm labels S A b a pc rnd).map (·.1) = (pdhg S A b a pc rnd).map (·.1) ∧
      (fistaCall fm labels S A b a pc rnd).map (·.1) = (fista S A b a pc rnd).map (·.1) := by
  refine ⟨?_, ?_, ?_⟩
  · obtain ⟨s', hs, -⟩ := iterative_ok fm "SIRT" S.term h
    simp only [sirtCall, hs, bind, Except.bind]
    cases sirt S A b a <;> rfl
  · obtain ⟨s', hs, -⟩ := iterative_ok fm "PDHG" S.term h
    simp only [pdhgCall, hs, bind, Except.bind]
    cases pdhg S A b a pc rnd <;> rfl
  · obtain ⟨s', hs, -⟩ := iterative_ok fm "FISTA" S.term h
    simp only [fistaCall, hs, bind, Except.bind]
    cases fista S A b a pc rnd <;> rfl

/-- Non-vacuity: a SIRT run with two regularizers and its label. -/
example (fm : Fmt) : ∃ x s, sirtCall (Q := Unit) fm [.base "TV2D" 3, .limit "lowlim" (.scalar 0)] ⟨1 / 2, none, [], .new .l2 none, .new .l2 none, none⟩ (matrixOp demoM)
    ![3, 5] demoArgs = .ok (x, s) := by
  obtain ⟨p, hp⟩ := matrix_scaling_ok (Q := Unit) (M := demoM) 1 (1 / 2) ⟨0, 0, by simp [demoM]⟩
  obtain ⟨⟨x, i, S'⟩, hr⟩ := sirt_runs (S := (⟨1 / 2, none, [], .new .l2 none, .new .l2 none, none⟩ : Solver (Fin 1) (Fin 2) Unit)) (A := matrixOp demoM) (b := ![3, 5])
    (a := demoArgs) hp rfl
  obtain ⟨s, hs⟩ : ∃ s, iterativeInfo fm "SIRT" (.new .l2 none : DataTerm (Fin 2)) ([.base "TV2D" 3, .limit "lowlim" (.scalar 0)] : List (RegLabel (Fin 1))) = .ok s := ⟨_, rfl⟩
  exact ⟨x, s, by simp only [sirtCall, hs, bind, Except.bind, hr]⟩

end Verif
