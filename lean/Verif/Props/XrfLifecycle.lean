import Verif.Model.XrfLifecycle

/-!
# C246: the XRF projector and the `with` statement
-/

namespace Verif.XrfPool

/-- The last beginning or end of a `with` block in a history: `some true` for a beginning. -/
def lastBlock : List Op → Option Bool
  | [] => none
  | o :: l => (lastBlock l).or (match o with | .enter => some true | .exit => some false | _ => none)

/-- How many `with` blocks are open after a history. -/
def openBlocks (l : List Op) : ℤ := l.count .enter - l.count .exit

/-- A program with one `with` block at a time, reused as often as wanted: projections in or between the blocks. -/
def OneAtATime : Bool → List Op → Prop
  | _, [] => True
  | false, .enter :: l => OneAtATime true l
  | true, .exit :: l => OneAtATime false l
  | true, .enter :: _ => False
  | false, .exit :: _ => False
  | b, _ :: l => OneAtATime b l

/-- The state after a history, in terms of the history. -/
private def Inv (c : Config) (b : Bool) (s : St) : Prop :=
  s.misused = [] ∧ (s.executor.isSome = (c.threaded && b)) ∧ s.live = s.executor.toList

private theorem run_inv (c : Config) : ∀ (l : List Op) (b : Bool) (s : St), Inv c b s →
    Inv c ((lastBlock l).getD b) (l.foldl (Op.run c) s)
  | [], b, s, h => by simpa [lastBlock] using h
  | o :: l, b, s, h => by
    have key : ∀ b' s', Inv c b' s' → (lastBlock (o :: l)).getD b = (lastBlock l).getD b' → Op.run c s o = s' →
        Inv c ((lastBlock (o :: l)).getD b) ((o :: l).foldl (Op.run c) s) := by
      intro b' s' h1 h2 h3
      rw [h2, List.foldl_cons, h3]
      exact run_inv c l b' s' h1
    obtain ⟨hm, he, hl⟩ := h
    rcases hct : c.threaded with _ | _
    · rw [hct] at he
      cases o with
      | enter => exact key true s ⟨hm, by rw [hct]; simpa using he, hl⟩ (by cases hb : lastBlock l <;> simp [lastBlock, hb]) (by simp [Op.run, enter, hct])
      | exit => exact key false s ⟨hm, by rw [hct]; simpa using he, hl⟩ (by cases hb : lastBlock l <;> simp [lastBlock, hb]) (by simp [Op.run, exit, hct])
      | fp => exact key b s ⟨hm, by rw [hct]; simpa using he, hl⟩ (by cases hb : lastBlock l <;> simp [lastBlock, hb]) (by simp [Op.run, fp, hct])
      | bp => exact key b s ⟨hm, by rw [hct]; simpa using he, hl⟩ (by cases hb : lastBlock l <;> simp [lastBlock, hb]) (by simp [Op.run, bp, hct])
    · rw [hct, Bool.true_and] at he
      have sub : (submit s).2 = s := by
        unfold submit
        cases hx : s.executor with
        | none => rfl
        | some e => rw [hx] at hl; simp [hl]
      cases o with
      | enter =>
        refine key true (enter c s) ?_ (by cases hb : lastBlock l <;> simp [lastBlock, hb]) rfl
        unfold enter
        rw [hct]
        cases hx : s.executor with
        | none => rw [hx] at hl; exact ⟨hm, by simp [hct], by simp [hl]⟩
        | some e => exact ⟨hm, by simp [hx, hct], by simpa [hx] using hl⟩
      | exit =>
        refine key false (exit c s) ?_ (by cases hb : lastBlock l <;> simp [lastBlock, hb]) rfl
        unfold exit
        rw [hct]
        cases hx : s.executor with
        | none => exact ⟨hm, by simp [hx], by simpa [hx] using hl⟩
        | some e => rw [hx] at hl; exact ⟨hm, by simp, by simp [hl]⟩
      | fp => exact key b s ⟨hm, by rw [hct]; simpa using he, hl⟩ (by cases hb : lastBlock l <;> simp [lastBlock, hb]) (by simp [Op.run, fp, hct, sub])
      | bp => exact key b s ⟨hm, by rw [hct]; simpa using he, hl⟩ (by cases hb : lastBlock l <;> simp [lastBlock, hb]) (by
          by_cases hs : c.symmetric = true <;> simp [Op.run, bp, hct, hs, sub])

private theorem inv (c : Config) (l : List Op) : Inv c ((lastBlock l).getD false) (runAll c l) :=
  run_inv c l false _ ⟨rfl, by simp [St.fresh], rfl⟩

/-- C246: for every history of blocks (nested or not) and projections, failed ones included: no work is given to a pool that was shut down, and
at most one pool exists; it exists if and only if the projector is threaded and the last `with` statement was one that began. -/
theorem C246_pool (c : Config) (l : List Op) :
    (runAll c l).misused = [] ∧ (runAll c l).live.length ≤ 1 ∧
    ((runAll c l).live ≠ [] ↔ c.threaded = true ∧ lastBlock l = some true) := by
  obtain ⟨h1, h2, h3⟩ := inv c l
  refine ⟨h1, ?_, ?_⟩
  · rw [h3]; cases (runAll c l).executor <;> simp
  · rw [h3]
    have e : (lastBlock l = some true) ↔ (lastBlock l).getD false = true := by rcases lastBlock l with _ | _ | _ <;> simp
    rw [e]
    cases hx : (runAll c l).executor with
    | none => rw [hx] at h2; simp at h2; simpa using h2
    | some v => rw [hx] at h2; simp at h2; simpa using h2

/-- What `misused` in `C246_pool` means: a projection that gives work to a pool that was shut down is recorded, and nothing else is. -/
theorem C246_misuse_is_recorded (s : St) : (submit s).2.misused ≠ s.misused ↔ ∃ e, s.executor = some e ∧ e ∉ s.live := by
  unfold submit
  cases s.executor with
  | none => simp
  | some e => by_cases h : e ∈ s.live <;> simp [h]

/-- C246: after any history, the forward-projection returns if and only if the projector is not threaded or the last `with` statement was one
that began; the back-projection also if the projector is not symmetric. -/
theorem C246_projections (c : Config) (l : List Op) :
    ((fp c (runAll c l)).1 = true ↔ c.threaded = false ∨ lastBlock l = some true) ∧
    ((bp c (runAll c l)).1 = true ↔ c.symmetric = false ∨ c.threaded = false ∨ lastBlock l = some true) := by
  obtain ⟨-, h2, -⟩ := inv c l
  have e : (lastBlock l = some true) ↔ (lastBlock l).getD false = true := by rcases lastBlock l with _ | _ | _ <;> simp
  have s : (submit (runAll c l)).1 = (runAll c l).executor.isSome := by
    unfold submit; cases (runAll c l).executor <;> rfl
  rw [e]
  constructor
  · unfold fp
    by_cases ht : c.threaded = true
    · simp [ht, s, h2]
    · simp [ht]
  · unfold bp
    by_cases hs : c.symmetric = true
    · by_cases ht : c.threaded = true
      · simp [hs, ht, s, h2]
      · simp [hs, ht]
    · simp [hs]

private theorem one_last : ∀ (l : List Op) (b : Bool), OneAtATime b l → openBlocks l + (if b then 1 else 0) = if (lastBlock l).getD b then 1 else 0
  | [], b, _ => by cases b <;> simp [openBlocks, lastBlock]
  | o :: l, b, h => by
    have hc : openBlocks (o :: l) = openBlocks l + (if o = .enter then 1 else 0) - (if o = .exit then 1 else 0) := by
      unfold openBlocks
      rw [List.count_cons, List.count_cons]
      cases o <;> simp <;> ring
    rw [hc]
    cases o with
    | enter =>
      cases b with
      | true => exact h.elim
      | false =>
        have := one_last l true h
        simp only [if_true] at this
        cases hb : lastBlock l <;> simp [lastBlock, hb] at this ⊢ <;> linarith
    | exit =>
      cases b with
      | false => exact h.elim
      | true =>
        have := one_last l false h
        cases hb : lastBlock l <;> simp [lastBlock, hb] at this ⊢ <;> linarith
    | fp =>
      have := one_last l b (by cases b <;> exact h)
      cases hb : lastBlock l <;> simp [lastBlock, hb] at this ⊢ <;> linarith
    | bp =>
      have := one_last l b (by cases b <;> exact h)
      cases hb : lastBlock l <;> simp [lastBlock, hb] at this ⊢ <;> linarith

/-- C246: with one block at a time, however often, projections inside a block return, and outside the blocks no pool is left. -/
theorem C246_with_partial (c : Config) (l : List Op) (h : OneAtATime false l) :
    (openBlocks l = 1 → (fp c (runAll c l)).1 = true ∧ (bp c (runAll c l)).1 = true) ∧ (openBlocks l = 0 → (runAll c l).live = []) := by
  have ho := one_last l false h
  simp only [Bool.false_eq_true, if_false, add_zero] at ho
  have e : (lastBlock l = some true) ↔ (lastBlock l).getD false = true := by rcases lastBlock l with _ | _ | _ <;> simp
  refine ⟨fun h1 => ?_, fun h0 => ?_⟩
  · have hl : lastBlock l = some true := by
      rw [e]; by_contra hn; rw [h1] at ho; simp [hn] at ho
    exact ⟨(C246_projections c l).1.2 (Or.inr hl), (C246_projections c l).2.2 (Or.inr (Or.inr hl))⟩
  · by_contra hn
    have := ((C246_pool c l).2.2.1 hn).2
    rw [e] at this
    rw [h0, this] at ho
    norm_num at ho

/-- Non-vacuity: two blocks in a row, the second still open. -/
example : OneAtATime false [.enter, .fp, .exit, .fp, .enter, .bp] ∧ openBlocks [.enter, .fp, .exit, .fp, .enter, .bp] = 1 := by
  refine ⟨by simp [OneAtATime], by decide⟩

/-- C246 is violated: a threaded projector cannot be used without a block (the other projectors can), and after the end of a nested block it
cannot be used in the rest of the outer block. -/
theorem C246_with_violated (sym : Bool) :
    (fp ⟨true, sym⟩ (runAll ⟨true, sym⟩ [])).1 = false ∧ (fp ⟨false, sym⟩ (runAll ⟨false, sym⟩ [])).1 = true ∧
    openBlocks [.enter, .enter, .exit] = 1 ∧ (fp ⟨true, sym⟩ (runAll ⟨true, sym⟩ [.enter, .enter, .exit])).1 = false ∧
    (bp ⟨true, true⟩ (runAll ⟨true, true⟩ [.enter, .enter, .exit])).1 = false := by
  refine ⟨?_, ?_, by decide, ?_, ?_⟩ <;> cases sym <;> decide

end Verif.XrfPool
