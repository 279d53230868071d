import Verif.Props.Slices
import Verif.Model.Regularizers

/-! # C278: a limit constraint given to FISTA is the limit option -/

namespace Verif
open Classical DataTerm

variable {ν ι Q : Type} [Fintype ν] [Fintype ι]

/-- `r` is `Constraint_LowerLimit(limit)` or `Constraint_UpperLimit(limit)` as far as FISTA uses it. -/
def IsLimit (side : LimitSide) (limit : Attr ν) (r : Reg ν Q) : Prop := ∀ x t, r.proxPrimal x t = limitProxPrimal side limit x

/-- The volume and the information about the run. -/
def volumeAndInfo (r : Arr ν × Info × Solver ν ι Q) : Arr ν × Info := (r.1, r.2.1)

private theorem fista_same {S : Solver ν ι Q} (rs rs' : List (Reg ν Q)) {A : Operator ν ι} (a : Args ν ι) (lo lo' up up' : Option (Attr ν))
    (hclip : ∀ x t, clipMask { a with lower := lo', upper := up' } (proxHead rs' t x) = clipMask { a with lower := lo, upper := up } (proxHead rs t x))
    (b : Arr ι) (precondition : Bool) (rnd : Arr ι) :
    (fista { S with regs := rs' } A b { a with lower := lo', upper := up' } precondition rnd).map volumeAndInfo =
      (fista { S with regs := rs } A b { a with lower := lo, upper := up } precondition rnd).map volumeAndInfo := by
  have hstep : ∀ (T U : DataTerm ι) (b1 b2 : Option (Arr ι)) σ θ, fistaStep A { a with lower := lo', upper := up' } rs' S.restartPeriod T U b1 b2 σ θ S.tolerance =
      fistaStep A { a with lower := lo, upper := up } rs S.restartPeriod T U b1 b2 σ θ S.tolerance := by
    intro T U b1 b2 σ θ
    funext ii s
    have e : ∀ (a : Args ν ι) (rs : List (Reg ν Q)), fistaStep A a rs S.restartPeriod T U b1 b2 σ θ S.tolerance ii s =
        let z := clipMask a (proxHead rs θ fun j => s.y j + θ j * A.adj (fun i => T.residual (A.fwd s.y) b1 i * σ i) j)
        ((⟨z, fun j => z j + fistaMomentum S.restartPeriod ii s.t * (z j - s.x j), fistaTNew S.restartPeriod ii s.t,
          (recordResiduals T U b1 b2 S.tolerance ii (A.fwd z) { s.info with iterations := s.info.iterations + 1 }).1⟩ : FState ν),
          (recordResiduals T U b1 b2 S.tolerance ii (A.fwd z) { s.info with iterations := s.info.iterations + 1 }).2) := fun a rs => by
      cases rs <;> rfl
    rw [e, e, hclip]
  unfold fista
  have hs : fistaScaling { S with regs := rs' } A { a with lower := lo', upper := up' } precondition rnd =
      fistaScaling { S with regs := rs } A { a with lower := lo, upper := up } precondition rnd := rfl
  rw [hs]
  simp only [hstep]
  rcases fistaScaling { S with regs := rs } A { a with lower := lo, upper := up } precondition rnd with e | ⟨σ, θ⟩
  · rfl
  simp only [Bind.bind, Except.bind]
  rcases testTerm (initBMasks a.bMask a.bTestMask).2 (S.term.assignData (some (.array b)) (.scalar 1)) S.termTest b (.scalar 1) with e | tt
  · rfl
  rfl

/-- Lower limit: `FISTA(regularizer=Constraint_LowerLimit(l))` without a `lower_limit` returns the same volume and the same residuals (or the same error) as
`FISTA()` with `lower_limit=l`, whatever the upper limit. -/
theorem C278_lower {S : Solver ν ι Q} {limit : Attr ν} {r : Reg ν Q} (hr : IsLimit .lower limit r) (rs : List (Reg ν Q)) (A : Operator ν ι) (a : Args ν ι)
    (b : Arr ι) (precondition : Bool) (rnd : Arr ι) :
    (fista { S with regs := r :: rs } A b { a with lower := none } precondition rnd).map volumeAndInfo =
      (fista { S with regs := ([] : List (Reg ν Q)) } A b { a with lower := some limit } precondition rnd).map volumeAndInfo := by
  refine fista_same (S := S) [] (r :: rs) a _ _ _ _ (fun x t => ?_) b precondition rnd
  simp only [proxHead]
  rw [hr]
  rfl

/-- Upper limit, provided that it is nowhere below the lower one. -/
theorem C278_upper {S : Solver ν ι Q} {limit : Attr ν} {r : Reg ν Q} (hr : IsLimit .upper limit r) (rs : List (Reg ν Q)) (A : Operator ν ι) (a : Args ν ι)
    (hlow : ∀ l, a.lower = some l → ∀ j, l.get j ≤ limit.get j) (b : Arr ι) (precondition : Bool) (rnd : Arr ι) :
    (fista { S with regs := r :: rs } A b { a with upper := none } precondition rnd).map volumeAndInfo =
      (fista { S with regs := ([] : List (Reg ν Q)) } A b { a with upper := some limit } precondition rnd).map volumeAndInfo := by
  refine fista_same (S := S) [] (r :: rs) a _ _ _ _ (fun x t => ?_) b precondition rnd
  simp only [proxHead]
  rw [hr]
  unfold clipMask
  congr 1
  funext j
  simp only [limitProxPrimal, clip1, Option.map_some, Option.map_none]
  cases hl : a.lower with
  | none => rfl
  | some l =>
    simp only [Option.map_some]
    rw [max_min_distrib_right, max_eq_left (hlow l hl j)]

/-- Non-vacuity: the constraint object. -/
example (limit : Attr ν) (x : Arr ν) : IsLimit .lower limit
    ({ sigmaTau := fun _ _ => 0, initDual := fun _ => 0, updateDual := limitUpdateDual limit, proxDual := limitProxDual .lower (limitNorm limit),
       updatePrimal := fun q => (q, q), proxPrimal := fun x _ => limitProxPrimal .lower limit x } : Reg ν (Arr ν)) := fun _ _ => rfl

end Verif
