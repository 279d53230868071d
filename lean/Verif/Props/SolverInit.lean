import Verif.Model.SolverInit

/-! # C12, C63: what the solver constructors accept -/

namespace Verif

/-- Specification: the terms derived from the squared l2 norm. -/
def L2Based : TermArg → Prop
  | .str s => s = "l2"
  | .obj c => c = .l2 ∨ c = .wl2 ∨ c = .l2b

/-- Specification: the regularizers listed by an argument, if all its elements are regularizers. -/
inductive Lists : RegArg → List RegObj → Prop
  | none : Lists .none []
  | one (r) : Lists (.one r) [r]
  | seq (l : List RegObj) : Lists (.seq (l.map some)) l

/-- Specification: wavelet and Fourier regularizers, whose transform is only set up when the solver is called. -/
def TransformBased (r : RegObj) : Prop := r.cls = .swl true ∨ r.cls = .swl false ∨ r.cls = .dwl ∨ r.cls = .fft

theorem initRegularizer_iff (a : RegArg) (l : List RegObj) : initRegularizer a = some l ↔ Lists a l := by
  constructor
  · intro h
    cases a with
    | none => simp [initRegularizer] at h; subst h; exact .none
    | one r => simp [initRegularizer] at h; subst h; exact .one r
    | other => simp [initRegularizer] at h
    | seq s =>
      simp only [initRegularizer] at h
      split_ifs at h with hs
      simp only [Option.some.injEq] at h
      have : s = l.map some := by
        subst h
        clear * - hs
        induction s with
        | nil => rfl
        | cons x xs ih =>
          simp only [List.all_cons, Bool.and_eq_true] at hs
          obtain ⟨y, rfl⟩ := Option.isSome_iff_exists.1 hs.1
          have h2 := ih hs.2
          simp only [List.filterMap_cons, id, List.map_cons]
          congr 1
      rw [this]; exact .seq l
  · rintro (_ | r | l)
    · rfl
    · rfl
    · simp [initRegularizer, List.filterMap_map]

theorem fistaTerm_iff (a : TermArg) : (fistaTerm a).isSome ↔ L2Based a := by
  cases a with
  | str s => simp only [fistaTerm, L2Based]; split_ifs <;> simp_all
  | obj c => cases c <;> simp [fistaTerm, L2Based, TermClass.isL2]

/-- FISTA is constructed (no ValueError) exactly if both data terms are l2-based, the regularizer argument is None, a
regularizer or a list of regularizers with at most one element, and the dry run of its primal proximal operator does
not say "not implemented". -/
theorem C12_fista_accepts_iff (term : TermArg) (test : Option TermArg) (reg : RegArg) :
    (fistaInit term test reg).isSome ↔
      L2Based term ∧ (∀ u, test = some u → L2Based u) ∧
      ∃ regs, Lists reg regs ∧ regs.length ≤ 1 ∧ ∀ r ∈ regs, r.primalProx r.dummyFits ≠ .notImplemented := by
  have hterms : (initTerms fistaTerm term test).isSome ↔ L2Based term ∧ ∀ u, test = some u → L2Based u := by
    rw [← fistaTerm_iff term]
    unfold initTerms
    cases h1 : fistaTerm term with
    | none => simp
    | some t =>
      cases test with
      | none => simp
      | some u =>
        simp only [Option.some.injEq, forall_eq']
        rw [← fistaTerm_iff u]
        cases h2 : fistaTerm u <;> simp
  rw [← and_assoc, ← hterms]
  unfold fistaInit
  cases hT : initTerms fistaTerm term test with
  | none => simp
  | some p =>
    simp only [Option.isSome_some, true_and]
    cases hR : initRegularizer reg with
    | none =>
      constructor
      · intro h; simp at h
      · rintro ⟨regs, h, -⟩
        rw [← initRegularizer_iff, hR] at h; cases h
    | some l =>
      have hl := (initRegularizer_iff reg l).1 hR
      have huniq : ∀ regs, Lists reg regs → regs = l := fun regs h => by
        rw [← initRegularizer_iff, hR] at h; cases h; rfl
      have hex : (∃ regs, Lists reg regs ∧ regs.length ≤ 1 ∧ ∀ r ∈ regs, r.primalProx r.dummyFits ≠ .notImplemented) ↔
          l.length ≤ 1 ∧ ∀ r ∈ l, r.primalProx r.dummyFits ≠ .notImplemented := by
        constructor
        · rintro ⟨regs, h, h2⟩; rw [huniq _ h] at h2; exact h2
        · intro h; exact ⟨l, hl, h⟩
      rw [hex]
      match l with
      | [] => simp
      | [r] =>
        by_cases hn : r.primalProx r.dummyFits = .notImplemented <;> simp [hn]
      | _ :: _ :: _ => simp

/-- More than one regularizer is always rejected; so are regularizers based on the gradient (TV, Huber TV, smoothness,
TNV, VTV), the Laplacian, the median filter or the SVD, and l1 regularizers with a norm that has no primal proximal
operator (l12, Huber, nuclear), in whatever state they are. -/
theorem C12_fista_rejects (term : TermArg) (test : Option TermArg) :
    (∀ l : List RegObj, 2 ≤ l.length → fistaInit term test (.seq (l.map some)) = none) ∧
    (∀ r : RegObj, r.cls = .grad ∨ r.cls = .lap ∨ r.cls = .med ∨ r.cls = .vSVD ∨
        (r.cls = .l1 ∧ (r.norm = .l12 ∨ r.norm = .huber ∨ r.norm = .ln)) →
      fistaInit term test (.one r) = none ∧ fistaInit term test (.seq [some r]) = none) := by
  have key : ∀ reg, (¬ ∃ regs, Lists reg regs ∧ regs.length ≤ 1 ∧ ∀ r ∈ regs, r.primalProx r.dummyFits ≠ .notImplemented) →
      fistaInit term test reg = none := by
    intro reg h
    rw [← Option.not_isSome_iff_eq_none, C12_fista_accepts_iff]
    rintro ⟨-, -, h'⟩; exact h h'
  have uniq : ∀ reg l l', Lists reg l → Lists reg l' → l = l' := by
    intro reg l l' h h'
    rw [← initRegularizer_iff] at h h'
    rw [h] at h'; cases h'; rfl
  constructor
  · intro l hl
    apply key
    rintro ⟨regs, h, h1, -⟩
    have := uniq _ _ _ h (.seq l)
    subst this; omega
  · intro r hr
    have hn : r.primalProx r.dummyFits = .notImplemented := by
      unfold RegObj.primalProx
      rcases hr with h | h | h | h | ⟨h, h' | h' | h'⟩ <;> simp [h, TermClass.noPrimal] <;> simp [h']
    constructor
    · apply key
      rintro ⟨regs, h, -, h2⟩
      have := uniq _ _ _ h (.one r)
      subst this; exact h2 r (by simp) hn
    · apply key
      rintro ⟨regs, h, -, h2⟩
      have := uniq _ _ _ h (.seq [r])
      subst this; exact h2 r (by simp) hn

/-- For regularizers that are not wavelet or Fourier based the decision is right: whatever FISTA accepts at
construction, its iterations can apply. -/
theorem C12_accepted_can_run (term : TermArg) (test : Option TermArg) (reg : RegArg) {t u regs}
    (h : fistaInit term test reg = some (t, u, regs)) : ∀ r ∈ regs, ¬ TransformBased r → fistaRunProx r = .returns := by
  have hs : (fistaInit term test reg).isSome := by rw [h]; rfl
  obtain ⟨-, -, l, hl, hlen, hprox⟩ := (C12_fista_accepts_iff term test reg).1 hs
  have : regs = l := by
    unfold fistaInit at h
    rw [(initRegularizer_iff reg l).2 hl] at h
    cases hT : initTerms fistaTerm term test with
    | none => rw [hT] at h; simp at h
    | some p =>
      rw [hT] at h
      match l, hlen with
      | [], _ => simp at h; exact h.2.2
      | [r], _ =>
        simp only [Option.pure_def, Option.bind_eq_bind, Option.bind_some] at h
        split_ifs at h
        simp at h; exact h.2.2.symm
  subst this
  intro r hr ht
  have hp := hprox r hr
  unfold TransformBased at ht
  push Not at ht
  unfold fistaRunProx
  unfold RegObj.primalProx at hp ⊢
  cases hc : r.cls <;> simp_all

/-- The full claim fails for wavelet and Fourier regularizers: a fresh, non-normalised stationary-wavelet regularizer
(the default) and a Fourier regularizer with its default l12 norm are accepted, but the first iteration of the call
raises NotImplementedError; the normalised stationary-wavelet regularizer is accepted and raises another exception. -/
theorem C63_accepts_unusable_violated :
    (∃ c, fistaInit (.str "l2") none (.one ⟨.swl false, .l1, false, false⟩) = some c) ∧
    fistaRunProx ⟨.swl false, .l1, false, false⟩ = .notImplemented ∧
    (∃ c, fistaInit (.str "l2") none (.one ⟨.fft, .l12, false, false⟩) = some c) ∧
    fistaRunProx ⟨.fft, .l12, false, false⟩ = .notImplemented ∧
    (∃ c, fistaInit (.str "l2") none (.one ⟨.swl true, .l1, false, false⟩) = some c) ∧
    fistaRunProx ⟨.swl true, .l1, false, false⟩ = .otherException := by
  refine ⟨⟨(.l2, .l2, [_]), rfl⟩, rfl, ⟨(.l2, .l2, [_]), rfl⟩, rfl, ⟨(.l2, .l2, [_]), rfl⟩, rfl⟩

/-- Which transform-based regularizers can actually be run by FISTA: decimated wavelets and Fourier, with a norm that
has a primal proximal operator; no stationary-wavelet regularizer at all. -/
theorem C63_usable_partial (r : RegObj) (h : TransformBased r) :
    fistaRunProx r = .returns ↔ (r.cls = .dwl ∨ r.cls = .fft) ∧ r.norm ≠ .huber ∧ r.norm ≠ .l12 ∧ r.norm ≠ .ln := by
  unfold fistaRunProx RegObj.primalProx
  rcases h with h | h | h | h <;> simp [h] <;> cases r.norm <;> simp [TermClass.noPrimal]

/-- SIRT takes the l2-based and the Kullback–Leibler terms, PDHG any term object; all solvers reject regularizer lists
that contain something else. -/
theorem C12_other_solvers (term : TermArg) (reg : RegArg) :
    ((sirtInit term none reg).isSome ↔
      (L2Based term ∨ term = .str "kl" ∨ term = .obj .kl) ∧ ∃ l, Lists reg l) ∧
    ((pdhgInit term none reg).isSome ↔
      ((∃ c, term = .obj c) ∨ term = .str "l2" ∨ term = .str "l1" ∨ term = .str "kl") ∧ ∃ l, Lists reg l) := by
  have hR : (initRegularizer reg).isSome ↔ ∃ l, Lists reg l := by
    rw [Option.isSome_iff_exists]
    exact exists_congr fun l => initRegularizer_iff reg l
  rw [← hR]
  constructor
  · cases h : initRegularizer reg with
    | none => simp [sirtInit, h]
    | some l =>
      cases term with
      | str s =>
        simp only [sirtInit, initTerms, baseTerm, h]
        by_cases h1 : s = "l2" <;> by_cases h2 : s = "kl" <;> simp [h1, h2, L2Based]
      | obj c => cases c <;> simp [sirtInit, initTerms, baseTerm, h, L2Based, TermClass.isL2, TermClass.isKL]
  · cases h : initRegularizer reg with
    | none => simp [pdhgInit, h]
    | some l =>
      cases term with
      | str s =>
        simp only [pdhgInit, initTerms, pdhgTerm, h]
        by_cases h1 : s = "l2" <;> by_cases h2 : s = "kl" <;> by_cases h3 : s = "l1" <;> simp [h1, h2, h3]
      | obj c => simp [pdhgInit, initTerms, pdhgTerm, h]

/-- Non-vacuity: accepted and rejected configurations. -/
example : (fistaInit (.obj .wl2) none (.seq [some ⟨.l1, .l1, false, false⟩])).isSome ∧
    (fistaInit (.str "l2") (some (.obj .l2b)) (.one ⟨.lowerLimit, .l2, false, false⟩)).isSome ∧
    fistaInit (.str "kl") none .none = none ∧
    fistaInit (.str "l2") none (.seq [some ⟨.l1, .l1, false, false⟩, none]) = none := ⟨rfl, rfl, rfl, rfl⟩

/-- Specification: the data term that an argument names: the object itself, or the term with that name. -/
inductive Names : TermArg → TermClass → Prop
  | obj (c) : Names (.obj c) c
  | l2 : Names (.str "l2") .l2
  | l1 : Names (.str "l1") .l1
  | kl : Names (.str "kl") .kl

/-- Every constructor that succeeds uses the data term named by its argument, for the test data the term named by the
other argument (by default the same), and the given regularizers in the given order. -/
theorem C12_terms_in_use (term : TermArg) (test : Option TermArg) (reg : RegArg) (t u : TermClass) (regs : List RegObj)
    (h : sirtInit term test reg = some (t, u, regs) ∨ pdhgInit term test reg = some (t, u, regs) ∨
      fistaInit term test reg = some (t, u, regs)) :
    Names term t ∧ (test = none → u = t) ∧ (∀ a, test = some a → Names a u) ∧ Lists reg regs := by
  have hb : ∀ (a : TermArg) c, baseTerm a = some c → Names a c := by
    intro a c h
    cases a with
    | str s => simp only [baseTerm] at h; split_ifs at h with h1 h2 <;> cases h <;> subst_vars <;> constructor
    | obj d => simp only [baseTerm] at h; split_ifs at h; cases h; constructor
  have hp : ∀ (a : TermArg) c, pdhgTerm a = some c → Names a c := by
    intro a c h
    cases a with
    | str s => simp only [pdhgTerm] at h; split_ifs at h <;> cases h <;> subst_vars <;> constructor
    | obj d => simp only [pdhgTerm] at h; cases h; constructor
  have hf : ∀ (a : TermArg) c, fistaTerm a = some c → Names a c := by
    intro a c h
    cases a with
    | str s => simp only [fistaTerm] at h; split_ifs at h <;> cases h <;> subst_vars <;> constructor
    | obj d => simp only [fistaTerm] at h; split_ifs at h; cases h; constructor
  have ht : ∀ conv : TermArg → Option TermClass, (∀ a c, conv a = some c → Names a c) →
      ∀ t u, initTerms conv term test = some (t, u) →
        Names term t ∧ (test = none → u = t) ∧ (∀ a, test = some a → Names a u) := by
    intro conv hc t u h
    unfold initTerms at h
    cases h1 : conv term with
    | none => rw [h1] at h; simp at h
    | some t' =>
      rw [h1] at h
      cases test with
      | none =>
        simp at h
        obtain ⟨rfl, rfl⟩ := h
        exact ⟨hc _ _ h1, fun _ => rfl, fun a ha => by cases ha⟩
      | some a =>
        cases h2 : conv a with
        | none => simp [h2] at h
        | some u' =>
          simp [h2] at h
          obtain ⟨rfl, rfl⟩ := h
          refine ⟨hc _ _ h1, fun h => by simp at h, fun b hb => ?_⟩
          cases hb; exact hc _ _ h2
  rcases h with h | h | h
  · unfold sirtInit at h
    cases h1 : initTerms baseTerm term test with
    | none => rw [h1] at h; simp at h
    | some p =>
      cases h2 : initRegularizer reg with
      | none => rw [h1, h2] at h; simp at h
      | some l =>
        rw [h1, h2] at h
        simp at h
        obtain ⟨rfl, rfl, rfl⟩ := h
        obtain ⟨a, b, c⟩ := ht _ hb _ _ h1
        exact ⟨a, b, c, (initRegularizer_iff _ _).1 h2⟩
  · unfold pdhgInit at h
    cases h1 : initTerms pdhgTerm term test with
    | none => rw [h1] at h; simp at h
    | some p =>
      cases h2 : initRegularizer reg with
      | none => rw [h1, h2] at h; simp at h
      | some l =>
        rw [h1, h2] at h
        simp at h
        obtain ⟨rfl, rfl, rfl⟩ := h
        obtain ⟨a, b, c⟩ := ht _ hp _ _ h1
        exact ⟨a, b, c, (initRegularizer_iff _ _).1 h2⟩
  · unfold fistaInit at h
    cases h1 : initTerms fistaTerm term test with
    | none => rw [h1] at h; simp at h
    | some p =>
      cases h2 : initRegularizer reg with
      | none => rw [h1, h2] at h; simp at h
      | some l =>
        rw [h1, h2] at h
        obtain ⟨a, b, c⟩ := ht _ hf p.1 p.2 h1
        match l, h with
        | [], h =>
          simp at h
          obtain ⟨rfl, rfl, rfl⟩ := h
          exact ⟨a, b, c, (initRegularizer_iff _ _).1 h2⟩
        | [r], h =>
          simp at h
          obtain ⟨-, rfl, rfl, rfl⟩ := h
          exact ⟨a, b, c, (initRegularizer_iff _ _).1 h2⟩
        | _ :: _ :: _, h => simp at h

/-- Non-vacuity of C12_terms_in_use: a PDHG with the Kullback–Leibler term, and an l1 term on the test set. -/
example : pdhgInit (.str "kl") (some (.str "l1")) (.one ⟨.grad, .l12, false, false⟩) =
    some (.kl, .l1, [⟨.grad, .l12, false, false⟩]) := rfl

end Verif
