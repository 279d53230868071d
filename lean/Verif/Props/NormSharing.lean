import Verif.Model.Regularizers
import Verif.Lemmas.DataTerms

/-! # C23 and C72: regularizer objects sharing a default norm object -/

namespace Verif
open Classical DataTerm

variable {δ : Type} [Fintype δ] {k : ℕ}

/-- Specification: the same object with a norm object of its own (number `i`). -/
def ownNorm (objs : Fin k → NormUser δ) (i : Fin k) : NormUser δ := { objs i with ref := i }

/-- Specification: every `prox` of an object comes after an `init` of that object. -/
def InitFirst (cs : List (NormOp k δ)) : Prop :=
  ∀ (pre post : List (NormOp k δ)) (i : Fin k) (dual : Arr δ), cs = pre ++ .prox i dual :: post → .init i ∈ pre

/-- Specification: the two ways of using one norm object are compatible: they assign the same data and step size, or the
norm is l1-like and neither assigns data. -/
def Compatible (t : DataTerm δ) (u v : NormUser δ) : Prop :=
  (u.data = v.data ∧ u.sigma = v.sigma) ∨ (t.kind.isL1 = true ∧ u.data = none ∧ v.data = none)

omit [Fintype δ] in
private theorem assign_assign (t : DataTerm δ) (d d' : Option (Attr δ)) (s s' : Attr δ) :
    (t.assignData d s).assignData d' s' = t.assignData d' s' := by
  unfold assignData
  simp only [DataTerm.mk.injEq, and_true, true_and]
  refine ⟨?_, ?_, ?_⟩
  · cases t.kind <;> rfl
  · cases t.kind <;> rfl
  · cases t.kind <;> rfl

private theorem proxDual_l1_sigma (t : DataTerm δ) (hk : t.kind.isL1 = true) (s s' : Attr δ) (dual : Arr δ) (w : Attr δ) :
    (t.assignData none s).proxDual dual w = (t.assignData none s').proxDual dual w := by
  cases h : t.kind <;> simp [Kind.isL1, h] at hk <;>
    (have hs : ∀ s, (t.assignData none s).subSigmaData dual = dual := fun _ => rfl
     simp only [proxDual, hs, applyThreshold, innerNorm]
     simp only [assignData, h])

private theorem proxDual_compat (t : DataTerm δ) (u v : NormUser δ) (h : Compatible t u v) (dual : Arr δ) (w : Attr δ) :
    (t.assignData u.data u.sigma).proxDual dual w = (t.assignData v.data v.sigma).proxDual dual w := by
  rcases h with ⟨h1, h2⟩ | ⟨h1, h2, h3⟩
  · rw [h1, h2]
  · rw [h2, h3]; exact proxDual_l1_sigma t h1 _ _ _ _

/-- Invariant: what is known of the shared and of the private norm objects, given the set of initialised objects. -/
private structure Inv (objs : Fin k → NormUser δ) (h0 : ℕ → DataTerm δ) (done : Fin k → Prop) (hs hp : ℕ → DataTerm δ) :
    Prop where
  priv : ∀ i : Fin k, hp i = h0 (objs i).ref ∨ hp i = (h0 (objs i).ref).assignData (objs i).data (objs i).sigma
  privDone : ∀ i : Fin k, done i → hp i = (h0 (objs i).ref).assignData (objs i).data (objs i).sigma
  shared : ∀ r, hs r = h0 r ∨ ∃ i, (objs i).ref = r ∧ hs r = (h0 r).assignData (objs i).data (objs i).sigma
  sharedDone : ∀ j, done j → ∃ i, (objs i).ref = (objs j).ref ∧
    hs (objs j).ref = (h0 (objs j).ref).assignData (objs i).data (objs i).sigma

private theorem run_inv (objs : Fin k → NormUser δ) (h0 : ℕ → DataTerm δ)
    (hc : ∀ i j, (objs i).ref = (objs j).ref → Compatible (h0 (objs i).ref) (objs i) (objs j)) :
    ∀ (cs : List (NormOp k δ)) (done : Fin k → Prop) (hs hp : ℕ → DataTerm δ), Inv objs h0 done hs hp →
      (∀ (pre post : List (NormOp k δ)) (i : Fin k) (dual : Arr δ), cs = pre ++ .prox i dual :: post →
        done i ∨ .init i ∈ pre) →
      NormOp.run objs hs cs = NormOp.run (ownNorm objs) hp cs := by
  intro cs
  induction cs with
  | nil => intros; rfl
  | cons c cs ih =>
    intro done hs hp inv hord
    unfold NormOp.run
    cases c with
    | init i =>
      simp only [NormOp.step]
      congr 1
      refine ih (fun j => done j ∨ j = i) _ _ ?_ ?_
      · have es : (hs (objs i).ref).assignData (objs i).data (objs i).sigma =
            (h0 (objs i).ref).assignData (objs i).data (objs i).sigma := by
          rcases inv.shared (objs i).ref with h | ⟨i', _, h⟩ <;> rw [h]
          exact assign_assign _ _ _ _ _
        have ep : (hp i).assignData (objs i).data (objs i).sigma =
            (h0 (objs i).ref).assignData (objs i).data (objs i).sigma := by
          rcases inv.priv i with h | h <;> rw [h]
          exact assign_assign _ _ _ _ _
        simp only [ownNorm]
        constructor
        · intro j
          by_cases hj : (j : ℕ) = i
          · have : j = i := Fin.ext hj
            subst this
            right; rw [Function.update_self, ep]
          · rw [Function.update_of_ne hj]; exact inv.priv j
        · intro j hdj
          by_cases hj : (j : ℕ) = i
          · have : j = i := Fin.ext hj
            subst this
            rw [Function.update_self, ep]
          · rw [Function.update_of_ne hj]
            rcases hdj with h | h
            · exact inv.privDone j h
            · exact absurd (congrArg Fin.val h) hj
        · intro r
          by_cases hr : r = (objs i).ref
          · subst hr; right; exact ⟨i, rfl, by rw [Function.update_self, es]⟩
          · rw [Function.update_of_ne hr]; exact inv.shared r
        · intro j hdj
          by_cases hr : (objs j).ref = (objs i).ref
          · exact ⟨i, hr.symm, by rw [hr, Function.update_self, es]⟩
          · rw [Function.update_of_ne hr]
            rcases hdj with h | h
            · exact inv.sharedDone j h
            · exact absurd (by rw [h]) hr
      · intro pre post j dual he
        rcases hord (.init i :: pre) post j dual (by rw [he]; rfl) with h | h
        · exact Or.inl (Or.inl h)
        · rcases List.mem_cons.1 h with h | h
          · exact Or.inl (Or.inr (by injection h))
          · exact Or.inr h
    | prox i dual =>
      simp only [NormOp.step]
      have hd : done i := by
        rcases hord [] cs i dual rfl with h | h
        · exact h
        · simp at h
      congr 1
      · obtain ⟨i', hr, h⟩ := inv.sharedDone i hd
        simp only [ownNorm]
        rw [h, inv.privDone i hd]
        have := hc i' i hr
        rw [hr] at this
        rw [proxDual_compat _ _ _ this]
      · refine ih done _ _ inv ?_
        intro pre post j dual' he
        rcases hord (.prox i dual :: pre) post j dual' (by rw [he]; rfl) with h | h
        · exact Or.inl h
        · rcases List.mem_cons.1 h with h | h
          · cases h
          · exact Or.inr h

/-- C23: for every family of objects, every way of sharing norm objects among them such that the sharers are compatible, and
every interleaving of calls in which an object is initialised before it is used, each object computes what it computes with
a norm object of its own. -/
theorem C23_independent (objs : Fin k → NormUser δ) (h0 : ℕ → DataTerm δ)
    (hc : ∀ i j, (objs i).ref = (objs j).ref → Compatible (h0 (objs i).ref) (objs i) (objs j))
    (cs : List (NormOp k δ)) (hcs : InitFirst cs) (hp : ℕ → DataTerm δ) (hpriv : ∀ i : Fin k, hp i = h0 (objs i).ref) :
    NormOp.run objs h0 cs = NormOp.run (ownNorm objs) hp cs := by
  refine run_inv objs h0 hc cs (fun _ => False) h0 hp ⟨fun i => Or.inl (hpriv i), fun _ h => h.elim, fun r => Or.inl rfl,
    fun _ h => h.elim⟩ ?_
  intro pre post i dual he
  exact Or.inr (hcs pre post i dual he)

/-- C23: the objects the library builds with default norms are compatible: the gradient family (l12 or l2, `sigma = 1/2`),
the l1 regularizer and the wavelet regularizers (l1, any `sigma`). -/
theorem C23_default_compatible (t : DataTerm δ) (w w' : Attr δ) (r r' : ℕ) :
    (∀ s, Compatible t (transformUser s w r) (transformUser s w' r')) ∧
    (t.kind.isL1 = true → ∀ s s', Compatible t (transformUser s w r) (transformUser s' w' r')) :=
  ⟨fun _ => Or.inl ⟨rfl, rfl⟩, fun h _ _ => Or.inr ⟨h, rfl, rfl⟩⟩

/-- Three objects, two of them sharing norm 0, used in an interleaved way: the hypotheses of C23 hold. -/
example (d : Arr (Fin 2)) :
    let objs : Fin 3 → NormUser (Fin 2) := ![transformUser (.scalar (1/2)) (.scalar 3) 0, transformUser (.scalar 1) (.scalar 4) 0,
      limitUser .lower (.scalar 5) 1]
    let h0 : ℕ → DataTerm (Fin 2) := fun r => if r = 0 then .new .l1 none else .new .l2 none
    NormOp.run objs h0 [.init 0, .init 1, .prox 0 d, .init 2, .prox 1 d, .prox 2 d, .prox 0 d] =
      NormOp.run (ownNorm objs) (fun r => if r = 2 then .new .l2 none else .new .l1 none)
        [.init 0, .init 1, .prox 0 d, .init 2, .prox 1 d, .prox 2 d, .prox 0 d] := by
  intro objs h0
  refine C23_independent objs h0 ?_ _ ?_ _ ?_
  · intro i j
    fin_cases i <;> fin_cases j <;> simp [objs, h0, transformUser, limitUser, Compatible, Kind.isL1, DataTerm.new]
  · intro pre post i dual he
    match pre, he with
    | [], he => simp at he
    | [a], he => simp at he
    | [a, b], he => simp at he; obtain ⟨rfl, rfl, ⟨rfl, _⟩, _⟩ := he; simp
    | [a, b, c], he => simp at he
    | [a, b, c, e], he => simp at he; obtain ⟨rfl, rfl, _, _, ⟨rfl, _⟩, _⟩ := he; simp
    | [a, b, c, e, f], he => simp at he; obtain ⟨rfl, rfl, _, rfl, _, ⟨rfl, _⟩, _⟩ := he; simp
    | [a, b, c, e, f, g], he => simp at he; obtain ⟨rfl, rfl, _, rfl, _, _, ⟨rfl, _⟩, _⟩ := he; simp
    | a :: b :: c :: e :: f :: g :: h :: l, he => simp at he
  · intro i; fin_cases i <;> simp [objs, h0, transformUser, limitUser]

/-- C72 is violated: two lower limits 0 and 5 built with the default norm. After both are initialised, the first one
computes another dual than it does with a norm of its own. -/
theorem C72_limits_default_norm_violated :
    let objs : Fin 2 → NormUser (Fin 1) := ![limitUser .lower (.scalar 0) 0, limitUser .lower (.scalar 5) 0]
    let cs : List (NormOp 2 (Fin 1)) := [.init 0, .init 1, .prox 0 fun _ => -1]
    NormOp.run objs (fun _ => .new .l2 none) cs ≠ NormOp.run (ownNorm objs) (fun _ => .new .l2 none) cs := by
  intro objs cs h
  have := congrArg (fun l => (l[2]?.getD none).elim 0 (fun a : Arr (Fin 1) => a 0)) h
  simp [objs, cs, NormOp.run, NormOp.step, limitUser, ownNorm, DataTerm.new, assignData, proxDual, subSigmaData,
    computeSigmaData, computeSigma1, Attr.map₂, Attr.map, Attr.get] at this
  norm_num at this

/-- C72, what holds: limit constraints with the default norm do not interfere if their limits are equal, or if they are given
norm objects of their own. Missing: different limits. -/
theorem C72_limits_default_norm_partial (objs : Fin k → NormUser δ) (h0 : ℕ → DataTerm δ)
    (hl : ∀ i, ∃ side limit, objs i = limitUser side limit (objs i).ref)
    (hsame : ∀ i j, (objs i).ref = (objs j).ref → (objs i).data = (objs j).data)
    (cs : List (NormOp k δ)) (hcs : InitFirst cs) (hp : ℕ → DataTerm δ) (hpriv : ∀ i : Fin k, hp i = h0 (objs i).ref) :
    NormOp.run objs h0 cs = NormOp.run (ownNorm objs) hp cs := by
  refine C23_independent objs h0 (fun i j hij => Or.inl ⟨hsame i j hij, ?_⟩) cs hcs hp hpriv
  obtain ⟨s, l, h⟩ := hl i
  obtain ⟨s', l', h'⟩ := hl j
  rw [h, h']; rfl

/-- C72 is violated by other regularizers as well: a gradient-based regularizer (step size 1/2) and an l1 or Fourier
regularizer (step size 1) that are given one and the same l2 norm object. -/
theorem C72_shared_norm_violated :
    let objs : Fin 2 → NormUser (Fin 1) := ![transformUser (.scalar (1/2)) (.scalar 1) 0, transformUser (.scalar 1) (.scalar 1) 0]
    let cs : List (NormOp 2 (Fin 1)) := [.init 0, .init 1, .prox 0 fun _ => 1]
    NormOp.run objs (fun _ => .new .l2 none) cs ≠ NormOp.run (ownNorm objs) (fun _ => .new .l2 none) cs := by
  intro objs cs h
  have := congrArg (fun l => (l[2]?.getD none).elim 0 (fun a : Arr (Fin 1) => a 0)) h
  simp [objs, cs, NormOp.run, NormOp.step, transformUser, ownNorm, DataTerm.new, assignData, proxDual, subSigmaData,
    computeSigmaData, computeSigma1, Attr.map, Attr.get] at this

end Verif
