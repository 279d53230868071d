import Verif.Model.AstraLifecycle

/-! # C34 and C80: handles of the ASTRA backend -/

namespace Verif.Astra
open Finset

/-! ## Specification: what a sequence of calls means for the handles, independent of the backend -/

/-- The effect of a call on the set of live handles; `none` if the call is wrong: creating a live handle, using or deleting a
handle that is not live. -/
def Event.apply (live : Finset ℕ) : Event → Option (Finset ℕ)
  | .create h => if h ∈ live then none else some (insert h live)
  | .use h => if h ∈ live then some live else none
  | .delete h => if h ∈ live then some (live.erase h) else none

/-- The live handles after a sequence of calls; `none` if one of them was wrong. -/
def replay (t : List Event) : Option (Finset ℕ) := t.foldlM Event.apply ∅

private theorem replay_snoc (t : List Event) (e : Event) : replay (t ++ [e]) = (replay t).bind (Event.apply · e) := by
  unfold replay
  rw [List.foldlM_append]
  cases h : List.foldlM Event.apply ∅ t <;> simp [List.foldlM]

/-- Safety invariant. -/
private def Safe (s : St) (live : Finset ℕ) : Prop :=
  replay s.trace = some live ∧ (∀ h ∈ live, h < s.next) ∧ s.projId.Nodup ∧ (∀ h ∈ s.projId, h ∈ live)

private theorem log_create {s : St} {live : Finset ℕ} (hs : Safe s live) :
    Safe s.newHandle.2 (insert s.next live) := by
  obtain ⟨h1, h2, h3, h4⟩ := hs
  have hn : s.next ∉ live := fun h => lt_irrefl _ (h2 _ h)
  refine ⟨?_, ?_, h3, fun h hh => mem_insert_of_mem (h4 h hh)⟩
  · simp only [St.newHandle, St.log]
    rw [replay_snoc, h1]; simp [Event.apply, hn]
  · intro h hh
    simp only [St.newHandle, St.log]
    rcases mem_insert.1 hh with rfl | hh
    · omega
    · have := h2 h hh; omega

private theorem log_use {s : St} {live : Finset ℕ} (hs : Safe s live) {h : ℕ} (hh : h ∈ live) : Safe (s.log (.use h)) live := by
  obtain ⟨h1, h2, h3, h4⟩ := hs
  refine ⟨?_, h2, h3, h4⟩
  simp only [St.log]; rw [replay_snoc, h1]; simp [Event.apply, hh]

private theorem log_delete {s : St} {live : Finset ℕ} (hs : Safe s live) {h : ℕ} (hh : h ∈ live) (hp : h ∉ s.projId) :
    Safe (s.log (.delete h)) (live.erase h) := by
  obtain ⟨h1, h2, h3, h4⟩ := hs
  refine ⟨?_, fun k hk => h2 k (mem_of_mem_erase hk), h3, fun k hk => mem_erase.2 ⟨?_, h4 k hk⟩⟩
  · simp only [St.log]; rw [replay_snoc, h1]; simp [Event.apply, hh]
  · rintro rfl; exact hp hk

private theorem createProjector_spec (s : St) (live : Finset ℕ) (hs : Safe s live) :
    ((createProjector s).1 = none ∧ Safe (createProjector s).2 live ∧ (createProjector s).2.projId = s.projId) ∨
    ∃ h, (createProjector s).1 = some h ∧ h ∉ live ∧ Safe (createProjector s).2 (insert h live) ∧
      (createProjector s).2.projId = s.projId := by
  unfold createProjector
  split
  · exact Or.inl ⟨rfl, hs, rfl⟩
  · refine Or.inr ⟨s.next, rfl, fun h => lt_irrefl _ (hs.2.1 _ h), ?_, rfl⟩
    exact log_create (s := { s with failProj := s.failProj.tail }) hs

private theorem createProjectors_spec : ∀ (n : ℕ) (s : St) (live : Finset ℕ), Safe s live →
    ∃ live', live ⊆ live' ∧ Safe (createProjectors n s).2 live' ∧ (createProjectors n s).2.projId = s.projId ∧
      ∀ hs, (createProjectors n s).1 = some hs → hs.Nodup ∧ (∀ h ∈ hs, h ∉ live) ∧ live' = live ∪ hs.toFinset := by
  intro n
  induction n with
  | zero => intro s live h; exact ⟨live, Subset.rfl, h, rfl, by rintro hs ⟨⟩; simp⟩
  | succ n ih =>
    intro s live hs
    unfold createProjectors
    rcases createProjector_spec s live hs with ⟨h1, h2, h3⟩ | ⟨h, h1, hn, h2, h3⟩
    · cases hc : createProjector s with
      | mk o s' =>
        rw [hc] at h1 h2 h3
        subst h1
        exact ⟨live, Subset.rfl, h2, h3, by rintro _ ⟨⟩⟩
    · cases hc : createProjector s with
      | mk o s' =>
        rw [hc] at h1 h2 h3
        subst h1
        obtain ⟨live', a1, a2, a3, a4⟩ := ih s' _ h2
        dsimp only at a2 a3 ⊢
        cases hcs : createProjectors n s' with
        | mk o' s'' =>
          rw [hcs] at a2 a3 a4
          cases o' with
          | none => exact ⟨live', (subset_insert _ _).trans a1, a2, a3.trans h3, by rintro _ ⟨⟩⟩
          | some l =>
            refine ⟨live', (subset_insert _ _).trans a1, a2, a3.trans h3, ?_⟩
            rintro _ ⟨⟩
            obtain ⟨b1, b2, b3⟩ := a4 l rfl
            refine ⟨List.nodup_cons.2 ⟨fun hm => b2 h hm (mem_insert_self _ _), b1⟩, ?_, ?_⟩
            · intro k hk
              rcases List.mem_cons.1 hk with rfl | hk
              · exact hn
              · exact fun hl => b2 k hk (mem_insert_of_mem hl)
            · rw [b3, List.toFinset_cons]; ext; simp

private theorem makeReady_safe (s : St) (live : Finset ℕ) (hs : Safe s live) : ∃ live', Safe (makeReady s).2 live' := by
  unfold makeReady
  split
  · exact ⟨live, hs⟩
  · have fin : ∀ (s : St) (live : Finset ℕ), Safe s live → ∃ live', Safe (match createProjector s with
        | (none, s) => (false, s)
        | (some h, s) => (true, { s with projId := s.projId ++ [h], isReady := true }) : Bool × St).2 live' := by
      intro s live hs
      rcases createProjector_spec s live hs with ⟨h1, h2, h3⟩ | ⟨h, h1, hn, h2, h3⟩
      · cases hc : createProjector s with
        | mk o s' => rw [hc] at h1 h2; subst h1; exact ⟨live, h2⟩
      · cases hc : createProjector s with
        | mk o s' =>
          rw [hc] at h1 h2 h3; subst h1
          obtain ⟨q1, q2, q3, q4⟩ := h2
          refine ⟨insert h live, q1, q2, ?_, ?_⟩
          · dsimp only at h3 ⊢
            rw [h3, List.nodup_append]
            exact ⟨hs.2.2.1, by simp, by rintro a ha b hb rfl; rw [List.mem_singleton] at hb; exact hn (hb ▸ hs.2.2.2 _ ha)⟩
          · intro k hk
            rcases List.mem_append.1 hk with hk | hk
            · exact q4 k hk
            · simp at hk; subst hk; exact mem_insert_self _ _
    by_cases hi : s.hasInd
    · simp only [hi, if_true]
      obtain ⟨live', a1, a2, a3, a4⟩ := createProjectors_spec s.nAngles s live hs
      cases hc : createProjectors s.nAngles s with
      | mk o s' =>
        rw [hc] at a2 a3 a4
        cases o with
        | none => exact ⟨live', a2⟩
        | some hs' =>
          obtain ⟨b1, b2, b3⟩ := a4 hs' rfl
          simp only [Bool.not_true, Bool.false_eq_true, if_false]
          refine fin { s' with projId := hs' } live' ⟨a2.1, a2.2.1, b1, ?_⟩
          intro k hk; rw [b3]; exact mem_union_right _ (List.mem_toFinset.2 hk)
    · simp only [hi]
      exact fin s live hs

private theorem deleteAll_safe : ∀ (hs : List ℕ) (s : St) (live : Finset ℕ), Safe s live → s.projId = [] → hs.Nodup →
    (∀ h ∈ hs, h ∈ live) → Safe (deleteAll hs s) (live \ hs.toFinset) ∧ (deleteAll hs s).projId = [] := by
  intro hs
  induction hs with
  | nil => intro s live h h2 _ _; simpa using ⟨h, h2⟩
  | cons h hs ih =>
    intro s live hsafe hp hn hl
    have hn' := List.nodup_cons.1 hn
    have := ih (s.log (.delete h)) (live.erase h) (log_delete hsafe (hl h (by simp)) (by rw [hp]; simp)) hp hn'.2
      fun k hk => mem_erase.2 ⟨fun e => hn'.1 (e ▸ hk), hl k (by simp [hk])⟩
    have e : live.erase h \ hs.toFinset = live \ (h :: hs).toFinset := by ext; simp; tauto
    rw [e] at this
    exact this

private theorem deleteAll_frame : ∀ (hs : List ℕ) (s : St) (l : List ℕ), deleteAll hs { s with projId := l } =
    { deleteAll hs s with projId := l } := by
  intro hs
  induction hs with
  | nil => intros; rfl
  | cons h hs ih => intro s l; simp only [deleteAll, St.log]; exact ih (s.log (.delete h)) l

private theorem dispose_safe (s : St) (live : Finset ℕ) (hs : Safe s live) :
    Safe (dispose s) (live \ s.projId.toFinset) ∧ (dispose s).projId = [] ∧ (dispose s).isReady = false := by
  have := deleteAll_safe s.projId { s with projId := [] } live ⟨hs.1, hs.2.1, by simp, by simp⟩ rfl hs.2.2.1 hs.2.2.2
  rw [deleteAll_frame] at this
  exact ⟨this.1, rfl, rfl⟩

private theorem attempt_frame (s : St) : (attempt s).2 = { s with failData := s.failData.tail } := rfl

private theorem attempt_safe {s : St} {live : Finset ℕ} (hs : Safe s live) : Safe (attempt s).2 live := hs

/-- A body that leaves the projector list and the set of live handles as they are. -/
private def Keeps (body : St → Bool × St) (P : Finset ℕ → Prop) : Prop :=
  ∀ s live, Safe s live → P live → Safe (body s).2 live ∧ (body s).2.projId = s.projId ∧ (body s).2.isReady = s.isReady ∧
    (body s).2.failProj = s.failProj ∧ (body s).2.hasInd = s.hasInd ∧ (body s).2.nAngles = s.nAngles

private theorem withHandle_keeps {body : ℕ → St → Bool × St} {P : Finset ℕ → Prop}
    (h : ∀ k, Keeps (body k) fun live => k ∈ live ∧ P (live.erase k)) : Keeps (withHandle body) P := by
  intro s live hs hP
  unfold withHandle
  have ha := attempt_frame s
  cases hc : attempt s with
  | mk o s' =>
    rw [hc] at ha
    dsimp only at ha
    subst ha
    cases o with
    | false => exact ⟨hs, rfl, rfl, rfl, rfl, rfl⟩
    | true =>
      have hn : s.next ∉ live := fun h => lt_irrefl _ (hs.2.1 _ h)
      have h0 := log_create (s := { s with failData := s.failData.tail }) hs
      obtain ⟨a1, a2, a3, a4, a5, a6⟩ := h s.next _ _ h0 ⟨mem_insert_self _ _, by
        show P ((insert s.next live).erase s.next); rw [erase_insert hn]; exact hP⟩
      have := log_delete a1 (mem_insert_self s.next live) (by rw [a2]; exact fun hm => hn (hs.2.2.2 _ hm))
      have e : (insert s.next live).erase s.next = live := erase_insert hn
      rw [e] at this
      exact ⟨this, a2, a3, a4, a5, a6⟩

private theorem run_keeps (proj : ℕ) : Keeps (runAlgorithm proj) fun live => proj ∈ live := by
  unfold runAlgorithm
  refine withHandle_keeps fun vid => withHandle_keeps fun sid => withHandle_keeps fun alg => ?_
  rintro s live hs ⟨h1, h2, h3, h4⟩
  have ha := attempt_frame s
  dsimp only
  cases hc : attempt s with
  | mk o s' =>
    rw [hc] at ha
    dsimp only at ha
    subst ha
    cases o with
    | false => exact ⟨hs, rfl, rfl, rfl, rfl, rfl⟩
    | true =>
      have hs' : Safe { s with failData := s.failData.tail } live := hs
      have m3 : proj ∈ live := mem_of_mem_erase (mem_of_mem_erase (mem_of_mem_erase h4))
      exact ⟨log_use (log_use (log_use (log_use hs' (mem_of_mem_erase (mem_of_mem_erase h3))) (mem_of_mem_erase h2)) h1) m3,
        rfl, rfl, rfl, rfl, rfl⟩

/-- What a projection does after `make_ready`. -/
private def body (angle : Option ℕ) (s : St) : Bool × St :=
  match attempt s with
  | (false, s) => (false, s)
  | (true, s) =>
    match angle with
    | none => match s.projId.getLast? with
      | some p => runAlgorithm p s
      | none => (false, s)
    | some a => if s.hasInd then
        (match s.projId[a]? with
        | some p => runAlgorithm p s
        | none => (false, s))
      else (false, s)

private theorem body_keeps (angle : Option ℕ) : Keeps (body angle) fun _ => True := by
  intro s live hs _
  unfold body
  have ha := attempt_frame s
  cases hc : attempt s with
  | mk o s' =>
    rw [hc] at ha
    dsimp only at ha
    subst ha
    have hs' : Safe { s with failData := s.failData.tail } live := hs
    cases o with
    | false => exact ⟨hs, rfl, rfl, rfl, rfl, rfl⟩
    | true =>
      dsimp only
      cases angle with
      | none =>
        dsimp only
        split
        · rename_i p hp
          exact run_keeps p _ live hs' (hs.2.2.2 _ (List.mem_of_getLast? hp))
        · exact ⟨hs, rfl, rfl, rfl, rfl, rfl⟩
      | some a =>
        dsimp only
        split
        · split
          · rename_i p hp
            exact run_keeps p _ live hs' (hs.2.2.2 _ (List.mem_of_getElem? hp))
          · exact ⟨hs, rfl, rfl, rfl, rfl, rfl⟩
        · exact ⟨hs, rfl, rfl, rfl, rfl, rfl⟩

private theorem project_eq (angle : Option ℕ) (s : St) : project angle s =
    if (makeReady s).1 then body angle (makeReady s).2 else (false, (makeReady s).2) := by
  unfold project body
  cases h : makeReady s with
  | mk o s' => cases o <;> rfl

private theorem op_safe (s : St) (live : Finset ℕ) (hs : Safe s live) (op : Op) : ∃ live', Safe (op.run s) live' := by
  cases op with
  | setGeometry n i =>
    have := (dispose_safe { s with projId := [] } live ⟨hs.1, hs.2.1, by simp, by simp⟩).1
    exact ⟨_, this⟩
  | makeReady => exact makeReady_safe s live hs
  | dispose => exact ⟨_, (dispose_safe s live hs).1⟩
  | project a =>
    obtain ⟨l, h⟩ := makeReady_safe s live hs
    simp only [Op.run, project_eq]
    split
    · exact ⟨l, (body_keeps a _ l h trivial).1⟩
    · exact ⟨l, h⟩

private theorem runAll_safe (ops : List Op) : ∀ (s : St) (live : Finset ℕ), Safe s live → ∃ live', Safe (runAll s ops) live' := by
  induction ops with
  | nil => intro s live h; exact ⟨live, h⟩
  | cons op ops ih =>
    intro s live h
    obtain ⟨l, hl⟩ := op_safe s live h op
    exact ih _ l hl

/-- C34: for every history of initialisations, `make_ready`, `dispose` (end of a `with` block), forward and back-projections,
and whatever calls fail on the way, no handle is ever used or deleted when it is not live: in particular none is deleted
twice, and none is used after its deletion. -/
theorem C34_no_misuse (failProj failData : List Bool) (ops : List Op) :
    replay (runAll (.fresh failProj failData) ops).trace ≠ none := by
  obtain ⟨l, hl⟩ := runAll_safe ops (.fresh failProj failData) ∅ ⟨rfl, by simp, by simp [St.fresh], by simp [St.fresh]⟩
  rw [hl.1]; simp

/-! ## No leaks -/

/-- Invariant: the only live handles are the ones in the backend's list, which is empty if the backend is not ready. -/
private def Tight (s : St) : Prop :=
  Safe s s.projId.toFinset ∧ (s.isReady = false → s.projId = []) ∧ s.failProj = []

private theorem createProjector_ok (s : St) (hf : s.failProj = []) : createProjector s =
    (some s.next, { s with next := s.next + 1, trace := s.trace ++ [.create s.next] }) := by
  unfold createProjector
  simp [hf, St.newHandle, St.log]

private theorem createProjectors_ok : ∀ (n : ℕ) (s : St), s.failProj = [] →
    ∃ hs, (createProjectors n s).1 = some hs ∧ (createProjectors n s).2.failProj = [] ∧
      (createProjectors n s).2.isReady = s.isReady := by
  intro n
  induction n with
  | zero => intro s h; exact ⟨[], rfl, h, rfl⟩
  | succ n ih =>
    intro s h
    unfold createProjectors
    rw [createProjector_ok s h]
    dsimp only
    obtain ⟨hs, h1, h2, h3⟩ := ih { s with next := s.next + 1, trace := s.trace ++ [.create s.next] } h
    cases hc : createProjectors n { s with next := s.next + 1, trace := s.trace ++ [.create s.next] } with
    | mk o s' => rw [hc] at h1 h2 h3; subst h1; exact ⟨_, rfl, h2, h3⟩

private theorem makeReady_tight (s : St) (h : Tight s) : Tight (makeReady s).2 ∧ (makeReady s).1 = true := by
  obtain ⟨hs, hr, hf⟩ := h
  unfold makeReady
  split
  · exact ⟨⟨hs, hr, hf⟩, rfl⟩
  · rename_i hnr
    have hp := hr (by simpa using hnr)
    rw [hp] at hs
    simp only [List.toFinset_nil] at hs
    have fin : ∀ s : St, s.failProj = [] → Safe s s.projId.toFinset → Tight (match createProjector s with
        | (none, s) => (false, s)
        | (some h, s) => (true, { s with projId := s.projId ++ [h], isReady := true }) : Bool × St).2 ∧
        (match createProjector s with
        | (none, s) => (false, s)
        | (some h, s) => (true, { s with projId := s.projId ++ [h], isReady := true }) : Bool × St).1 = true := by
      intro s hf hs
      rcases createProjector_spec s _ hs with ⟨h1, _, _⟩ | ⟨h, h1, hn, h2, h3⟩
      · rw [createProjector_ok s hf] at h1; cases h1
      · rw [createProjector_ok s hf] at h1 h2 ⊢
        injection h1 with h1
        subst h1
        obtain ⟨q1, q2, q3, q4⟩ := h2
        have e : (s.projId ++ [s.next]).toFinset = insert s.next s.projId.toFinset := by ext; simp
        refine ⟨⟨⟨?_, ?_, ?_, ?_⟩, by simp, hf⟩, rfl⟩
        · dsimp only; rw [e]; exact q1
        · dsimp only; rw [e]; exact q2
        · dsimp only
          rw [List.nodup_append]
          exact ⟨hs.2.2.1, by simp, by rintro a ha b hb rfl; rw [List.mem_singleton] at hb; exact hn (hb ▸ List.mem_toFinset.2 ha)⟩
        · intro k hk; exact List.mem_toFinset.2 hk
    by_cases hi : s.hasInd
    · simp only [hi, if_true]
      obtain ⟨live', a1, a2, a3, a4⟩ := createProjectors_spec s.nAngles s ∅ hs
      obtain ⟨l, b1, b2, b3⟩ := createProjectors_ok s.nAngles s hf
      cases hc : createProjectors s.nAngles s with
      | mk o s' =>
        rw [hc] at a2 a3 a4 b1 b2
        dsimp only at b1
        subst b1
        obtain ⟨c1, c2, c3⟩ := a4 l rfl
        simp only [Bool.not_true, Bool.false_eq_true, if_false]
        refine fin { s' with projId := l } b2 ?_
        have : live' = l.toFinset := by rw [c3]; simp
        subst this
        exact ⟨a2.1, a2.2.1, c1, fun k hk => List.mem_toFinset.2 hk⟩
    · simp only [hi]
      refine fin s hf ?_
      rw [hp]; exact hs

private theorem deleteAll_failProj : ∀ (hs : List ℕ) (s : St), (deleteAll hs s).failProj = s.failProj := by
  intro hs
  induction hs with
  | nil => intro s; rfl
  | cons h hs ih => intro s; exact ih _

private theorem dispose_tight (s : St) (h : Tight s) : Tight (dispose s) ∧ replay (dispose s).trace = some ∅ := by
  obtain ⟨h1, h2, h3⟩ := dispose_safe s _ h.1
  rw [Finset.sdiff_self] at h1
  refine ⟨⟨?_, fun _ => h2, ?_⟩, h1.1⟩
  · rw [h2]; exact h1
  · unfold dispose; simp only [deleteAll_failProj]; exact h.2.2

private theorem project_tight (a : Option ℕ) (s : St) (h : Tight s) : Tight (project a s).2 := by
  obtain ⟨t, ht⟩ := makeReady_tight s h
  rw [project_eq, if_pos ht]
  obtain ⟨a1, a2, a3, a4, _⟩ := body_keeps a _ _ t.1 trivial
  refine ⟨?_, ?_, ?_⟩
  · rw [a2]; exact a1
  · intro hr; rw [a2]; exact t.2.1 (a3 ▸ hr)
  · rw [a4]; exact t.2.2

/-- Specification: no geometry is initialised on a backend that holds projectors. -/
def InitWhenIdle (s : St) : List Op → Prop
  | [] => True
  | .setGeometry n i :: ops => s.isReady = false ∧ InitWhenIdle ((Op.setGeometry n i).run s) ops
  | op :: ops => InitWhenIdle (op.run s) ops

private theorem runAll_tight (ops : List Op) : ∀ s : St, Tight s → InitWhenIdle s ops → Tight (runAll s ops) := by
  induction ops with
  | nil => intro s h _; exact h
  | cons op ops ih =>
    intro s h hi
    show Tight (runAll (op.run s) ops)
    cases op with
    | setGeometry n i =>
      refine ih _ ?_ hi.2
      have hp := h.2.1 hi.1
      have e : ({ s with projId := [] } : St) = s := by rw [← hp]
      have := (dispose_tight s h).1
      simp only [Op.run, initGeometry, e]
      exact ⟨this.1, this.2.1, this.2.2⟩
    | makeReady => exact ih _ (makeReady_tight s h).1 hi
    | dispose => exact ih _ (dispose_tight s h).1 hi
    | project a => exact ih _ (project_tight a s h) hi

private theorem fresh_tight (failData : List Bool) : Tight (.fresh [] failData) :=
  ⟨⟨rfl, by simp [St.fresh], by simp [St.fresh], by simp [St.fresh]⟩, fun _ => rfl, rfl⟩

/-- C34: for every history in which geometries are only initialised while the backend holds no projectors, and in which any
data or algorithm call may fail at any point (creating projectors does not), no handle is left after `dispose`. -/
theorem C34_no_leak (failData : List Bool) (ops : List Op) (hi : InitWhenIdle (.fresh [] failData) ops) :
    replay (runAll (.fresh [] failData) (ops ++ [.dispose])).trace = some ∅ := by
  have := (dispose_tight _ (runAll_tight ops _ (fresh_tight failData) hi)).2
  simpa [runAll, Op.run] using this

/-- C34: the data and algorithm handles are gone after every projection, even without `dispose` and whichever of its calls
failed: the live handles are exactly the projectors, one per angle if they were requested, plus one. -/
theorem C34_projection_releases (failData : List Bool) (ops : List Op) (hi : InitWhenIdle (.fresh [] failData) ops) :
    replay (runAll (.fresh [] failData) ops).trace = some (runAll (.fresh [] failData) ops).projId.toFinset :=
  (runAll_tight ops _ (fresh_tight failData) hi).1.1

/-- A history with a failing projection, that meets the hypotheses of C34. -/
example : InitWhenIdle (.fresh [] [false, false, true])
      [.setGeometry 2 true, .project none, .project (some 1), .dispose, .setGeometry 1 false, .makeReady] ∧
    (runAll (.fresh [] [false, false, true])
      [.setGeometry 2 true, .project none, .project (some 1), .dispose, .setGeometry 1 false, .makeReady]).trace.length = 19 := by
  constructor
  · exact ⟨rfl, rfl, trivial⟩
  · rfl

/-- C80 is violated: initialising the geometry of a backend that holds projectors loses them; so does a projector that cannot
be created after others were. -/
theorem C80_no_leak_violated :
    (∃ live, replay (runAll (.fresh [] []) [.setGeometry 1 false, .makeReady, .setGeometry 1 false, .dispose]).trace = some live ∧
      live ≠ ∅) ∧
    (∃ live, replay (runAll (.fresh [false, true] []) [.setGeometry 2 true, .makeReady, .dispose]).trace = some live ∧
      live ≠ ∅) := by
  refine ⟨⟨{0}, by rfl, by decide⟩, ⟨{0}, by rfl, by decide⟩⟩

/-- C80, what holds without those two restrictions: nothing is misused, and the projectors the backend still knows of are live.
Missing: the ones it has forgotten. -/
theorem C80_no_leak_partial (failProj failData : List Bool) (ops : List Op) :
    ∃ live, replay (runAll (.fresh failProj failData) ops).trace = some live ∧
      ∀ h ∈ (runAll (.fresh failProj failData) ops).projId, h ∈ live := by
  obtain ⟨l, hl⟩ := runAll_safe ops (.fresh failProj failData) ∅ ⟨rfl, by simp, by simp [St.fresh], by simp [St.fresh]⟩
  exact ⟨l, hl.1, hl.2.2.2⟩

end Verif.Astra
