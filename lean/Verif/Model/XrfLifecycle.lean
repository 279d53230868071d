import Mathlib.Tactic

/-!
# Model of the thread pool of `ProjectorAttenuationXRF` (`src/corrct/projectors.py`)

The projector creates a thread pool in `__enter__` and shuts it down in `__exit__`, if it uses several threads and the scikit-image
backend. Pools are numbered in the order of their creation.
-/

namespace Verif.XrfPool

/-- How the projector was constructed (src/corrct/projectors.py:432-435): `threaded` is the condition
`self.use_multithreading and isinstance(self.projector_backend, ProjectorBackendSKimage)` (:479, 487, 583, 612). -/
structure Config where
  threaded : Bool
  symmetric : Bool

/-- The attribute `executor`, and the outside world: how many pools were created, which of them are not shut down, and the pools to which
work was given after their shutdown. -/
structure St where
  executor : Option ℕ
  created : ℕ
  live : List ℕ
  misused : List ℕ

/-- After the constructor: `self.executor = None` (src/corrct/projectors.py:475). -/
def St.fresh : St := ⟨none, 0, [], []⟩

/-- `__enter__` (src/corrct/projectors.py:477-482). `super().__enter__()` only marks the backend as ready (:197-200, and
src/corrct/_projector_backends.py:182-187). -/
def enter (c : Config) (s : St) : St :=
  if c.threaded then
    match s.executor with
    | none => { s with executor := some s.created, created := s.created + 1, live := s.created :: s.live }
    | some _ => s
  else s

/-- `__exit__` (src/corrct/projectors.py:484-490); also called when the block raised. -/
def exit (c : Config) (s : St) : St :=
  if c.threaded then
    match s.executor with
    | some e => { s with executor := none, live := s.live.filter (· ≠ e) }
    | none => s
  else s

/-- `self.executor.map(…)` (src/corrct/projectors.py:584, 613): `None.map` raises `AttributeError` (`false`). -/
def submit (s : St) : Bool × St :=
  match s.executor with
  | none => (false, s)
  | some e => (true, if e ∈ s.live then s else { s with misused := e :: s.misused })

/-- `fp` (src/corrct/projectors.py:569-592): does it return? -/
def fp (c : Config) (s : St) : Bool × St := if c.threaded then submit s else (true, s)

/-- `bp` (src/corrct/projectors.py:594-622): does it return? Only the symmetric projector uses the pool. -/
def bp (c : Config) (s : St) : Bool × St := if c.symmetric then (if c.threaded then submit s else (true, s)) else (true, s)

/-- What a program can do with a projector. An exception is caught by the program, which may go on. -/
inductive Op where
  | enter
  | exit
  | fp
  | bp
  deriving DecidableEq

/-- One operation. -/
def Op.run (c : Config) (s : St) : Op → St
  | .enter => XrfPool.enter c s
  | .exit => XrfPool.exit c s
  | .fp => (XrfPool.fp c s).2
  | .bp => (XrfPool.bp c s).2

/-- A history. -/
def runAll (c : Config) (ops : List Op) : St := ops.foldl (Op.run c) .fresh

end Verif.XrfPool
