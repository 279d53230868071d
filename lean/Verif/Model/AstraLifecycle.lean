import Mathlib.Data.Finset.Basic
import Mathlib.Tactic

/-!
# Model of the resource handling of `ProjectorBackendASTRA` (`src/corrct/_projector_backends.py`)

ASTRA hands out integer handles for projectors, data and algorithms. The model records the calls made to ASTRA in a trace.
Any call creating or running something may raise: the two lists of booleans say which ones do (an exhausted list means no more
failures). Deleting does not fail.
-/

namespace Verif.Astra

/-- A call to ASTRA about handle `h`. -/
inductive Event where
  | create (h : ℕ)
  | use (h : ℕ)
  | delete (h : ℕ)
  deriving DecidableEq

/-- The backend object (src/corrct/_projector_backends.py:359-378, 113-116) together with the outside world: the next handle
ASTRA will give, the calls so far, and which future projector creations (`failProj`) and other calls (`failData`) raise. -/
structure St where
  projId : List ℕ
  isReady : Bool
  hasInd : Bool
  nAngles : ℕ
  next : ℕ
  trace : List Event
  failProj : List Bool
  failData : List Bool

/-- A fresh object, before `initialize_geometry` (src/corrct/_projector_backends.py:113-116). -/
def St.fresh (failProj failData : List Bool) : St := ⟨[], false, false, 0, 0, [], failProj, failData⟩

def St.log (s : St) (e : Event) : St := { s with trace := s.trace ++ [e] }

/-- A call returning a new handle. -/
def St.newHandle (s : St) : ℕ × St := (s.next, { s.log (.create s.next) with next := s.next + 1 })

/-- `astra.create_projector(…)`: `none` if it raises. -/
def createProjector (s : St) : Option ℕ × St :=
  if s.failProj.headD false then (none, { s with failProj := s.failProj.tail })
  else let (h, s) := { s with failProj := s.failProj.tail }.newHandle; (some h, s)

/-- `[astra.create_projector(…) for pg in self.proj_geom_ind]` (src/corrct/_projector_backends.py:528-531): if one raises, the
handles created before are lost. -/
def createProjectors : ℕ → St → Option (List ℕ) × St
  | 0, s => (some [], s)
  | n + 1, s =>
    match createProjector s with
    | (none, s) => (none, s)
    | (some h, s) =>
      match createProjectors n s with
      | (none, s) => (none, s)
      | (some hs, s) => (some (h :: hs), s)

/-- `make_ready` (src/corrct/_projector_backends.py:506-535, and 736-749 for the direct variant); the boolean is `false` if it
raised. -/
def makeReady (s : St) : Bool × St :=
  if s.isReady then (true, s)
  else
    let (ok, s) : Bool × St :=
      if s.hasInd then
        match createProjectors s.nAngles s with
        | (none, s) => (false, s)
        | (some hs, s) => (true, { s with projId := hs })
      else (true, s)
    if !ok then (false, s)
    else match createProjector s with
      | (none, s) => (false, s)
      | (some h, s) => (true, { s with projId := s.projId ++ [h], isReady := true })

/-- `for p in self.proj_id: astra.projector.delete(p)`. -/
def deleteAll : List ℕ → St → St
  | [], s => s
  | h :: hs, s => deleteAll hs (s.log (.delete h))

/-- `dispose` (src/corrct/_projector_backends.py:560-566); also what leaving the `with` block and `__del__` do
(src/corrct/projectors.py:201-203 and src/corrct/_projector_backends.py:191-194). -/
def dispose (s : St) : St := { deleteAll s.projId s with projId := [], isReady := false }

/-- `initialize_geometry` (src/corrct/_projector_backends.py:421-423: `self.proj_id = []` and then `self.dispose()`). -/
def initGeometry (nAngles : ℕ) (hasInd : Bool) (s : St) : St :=
  { dispose { s with projId := [] } with nAngles := nAngles, hasInd := hasInd }

/-- A fallible call on data or algorithms: `false` if it raises. -/
def attempt (s : St) : Bool × St := (!s.failData.headD false, { s with failData := s.failData.tail })

/-- `try: body finally: delete h`. -/
def finallyDelete (h : ℕ) (r : Bool × St) : Bool × St := (r.1, r.2.log (.delete h))

/-- Acquire a handle by a fallible call, run `body` with it, and release it (`x = …; try: … finally: delete(x)`). -/
def withHandle (body : ℕ → St → Bool × St) (s : St) : Bool × St :=
  match attempt s with
  | (false, s) => (false, s)
  | (true, s) => let (h, s) := s.newHandle; finallyDelete h (body h s)

/-- The part of `fp`/`bp` after the projector has been chosen (src/corrct/_projector_backends.py:600-620, 657-677): link the
volume, link the projections, create the algorithm and run it with the projector, releasing everything. -/
def runAlgorithm (proj : ℕ) (s : St) : Bool × St :=
  withHandle (fun vid => withHandle fun sid => withHandle fun alg s =>
    match attempt s with
    | (false, s) => (false, s)
    | (true, s) => (true, (((s.log (.use vid)).log (.use sid)).log (.use alg)).log (.use proj))) s

/-- `fp`/`bp` (src/corrct/_projector_backends.py:568-680): make ready, check the data (may raise), choose the projector, run. -/
def project (angle : Option ℕ) (s : St) : Bool × St :=
  match makeReady s with
  | (false, s) => (false, s)
  | (true, s) =>
    match attempt s with
    | (false, s) => (false, s)
    | (true, s) =>
      match angle with
      | none => match s.projId.getLast? with
        | some p => runAlgorithm p s
        | none => (false, s)
      | some a => if s.hasInd then
          (match s.projId[a]? with
          | some p => runAlgorithm p s
          | none => (false, s))
        else (false, s)

/-- What a program can do with a backend. A raised exception is caught by the program, which may go on. -/
inductive Op where
  | setGeometry (nAngles : ℕ) (hasInd : Bool)
  | makeReady
  | dispose
  | project (angle : Option ℕ)

/-- One operation. -/
def Op.run (s : St) : Op → St
  | .setGeometry n i => Astra.initGeometry n i s
  | .makeReady => (Astra.makeReady s).2
  | .dispose => Astra.dispose s
  | .project a => (Astra.project a s).2

/-- A history. -/
def runAll (s : St) (ops : List Op) : St := ops.foldl Op.run s

end Verif.Astra
