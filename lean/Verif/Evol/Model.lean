/-!
# Model of the time-evolution loop of one sweep point

Source: `/repo/src/quanguru/classes/modularSweep.py`, `QSim.py`.
-/
namespace Verif.Evol

/-- One key/value pair of `qSim.subSys` (protocol -> quantum system).  `id`/`sys` identify the objects (no class on the way
from `named` to protocols/systems defines `__eq__`, so `in` means identity); `key` is the key used to store states
(`QSim.py:324-327`), `keep` is `protocol.simulation.delStates is False` (`QSim.py:323`). -/
structure Proto where
  id   : Nat
  sys  : Nat
  key  : String
  keep : Bool
deriving Repr, DecidableEq

/-- Owner of a callback. -/
inductive Who where
  | sim
  | pro (i : Nat)
  | sys (i : Nat)
deriving Repr, DecidableEq

/-- Observable events of a run: the user callbacks that are called (with the states handed to them) and the steps. -/
inductive Event (S : Type) where
  | pre     (w : Who)
  | post    (w : Who)
  | compute (w : Who) (states : List S)
  | evolve  (ind : Nat)
deriving Repr, DecidableEq

/-- `cur i` is `currentState` of protocol `i`; `stored` is the log of `qRes.states[key].append(state)`; `trace` the events. -/
structure St (S : Type) where
  cur    : Nat → S
  stored : List (String × S)
  trace  : List (Event S)

/-- Assign `currentState` of protocol `i`. -/
def upd {S : Type} (cur : Nat → S) (i : Nat) (s : S) : Nat → S := fun j => if j = i then s else cur j

/-- The storing loop of `Simulation.__compute` (`QSim.py:321-327`). -/
def storeStates {S : Type} (cur : Nat → S) : List Proto → List (String × S)
  | [] => []
  | p :: ps => (if p.keep then [(p.key, cur p.id)] else []) ++ storeStates cur ps

/-- `Simulation.__compute` (`QSim.py:316-328`): store the states, then call the simulation's `compute` with the list of all
current states.  A missing `compute` is no event for the user; the model records the call. -/
def simCompute {S : Type} (ps : List Proto) (st : St S) : St S :=
  { st with stored := st.stored ++ storeStates st.cur ps,
            trace := st.trace ++ [.compute .sim (ps.map fun p => st.cur p.id)] }

/-- `for protocol in qSim.subSys.keys(): protocol._computeBase__compute(protocol.currentState)`
(`modularSweep.py:123-124,139-140`). -/
def proComputes {S : Type} (ps : List Proto) (cur : Nat → S) : List (Event S) :=
  ps.map fun p => .compute (.pro p.id) [cur p.id]

/-- `calledFor` loop (`modularSweep.py:125-129,141-145`). -/
def sysComputes {S : Type} (cur : Nat → S) : List Nat → List Proto → List (Event S)
  | _, [] => []
  | calledFor, p :: ps =>
    if p.sys ∈ calledFor then sysComputes cur calledFor ps
    else .compute (.sys p.sys) [cur p.id] :: sysComputes cur (calledFor ++ [p.sys]) ps

/-- `calledFor` loop of the pre/post callbacks (`modularSweep.py:82-86,91-95`). -/
def sysCalls {S : Type} (ev : Who → Event S) : List Nat → List Proto → List (Event S)
  | _, [] => []
  | calledFor, p :: ps =>
    if p.sys ∈ calledFor then sysCalls ev calledFor ps
    else ev (.sys p.sys) :: sysCalls ev (calledFor ++ [p.sys]) ps

/-- The compute calls at one time point (`modularSweep.py:121-129` and `138-145`). -/
def computeAll {S : Type} (ps : List Proto) (st : St S) : St S :=
  let st := simCompute ps st
  { st with trace := st.trace ++ proComputes ps st.cur ++ sysComputes st.cur [] ps }

/-- `evolFunc` (`timeEvolBase`, `modularSweep.py:147-161`): every protocol's current state is advanced; `act ind i` is what
step `ind` of protocol `i` does to its state (`Verif.Evol.closedStep`, `openStep`, `sampledStep` are the three branches). -/
def evolve {S : Type} (act : Nat → Nat → S → S) (ind : Nat) : List Proto → (Nat → S) → (Nat → S)
  | [], cur => cur
  | p :: ps, cur => evolve act ind ps (upd cur p.id (act ind p.id (cur p.id)))

/-- The loop `for ind in range(qSim.stepCount)` (`modularSweep.py:132-145`), started at `ind`. -/
def loop {S : Type} (act : Nat → Nat → S → S) (ps : List Proto) : Nat → Nat → St S → St S
  | 0, _, st => st
  | n + 1, ind, st =>
    let st := { st with cur := evolve act ind ps st.cur, trace := st.trace ++ [.evolve ind] }
    loop act ps n (ind + 1) (computeAll ps st)

/-- `timeEvolDefault` (`modularSweep.py:118-145`); `evolves` is `callable(qSim.evolFunc)`.  Without an evolution function
only the protocols' and systems' computes are called, once. -/
def timeEvolDefault {S : Type} (act : Nat → Nat → S → S) (evolves : Bool) (ps : List Proto) (stepCount : Nat)
    (st : St S) : St S :=
  if evolves then loop act ps stepCount 0 (computeAll ps st)
  else { st with trace := st.trace ++ proComputes ps st.cur ++ sysComputes st.cur [] ps }

/-- `_runSweepAndPrep` (`modularSweep.py:70-95`) after the sweep assignment: initialise the current states, empty the
stored states (`_resetLast`), call pre callbacks, evolve, call post callbacks.  `init i` is the initial state of
protocol `i` (its density matrix when the protocol is open). -/
def runPoint {S : Type} (act : Nat → Nat → S → S) (evolves : Bool) (ps : List Proto) (stepCount : Nat)
    (init : Nat → S) (cur0 : Nat → S) : St S :=
  let cur := if evolves then fun i => if i ∈ ps.map (·.id) then init i else cur0 i else cur0
  let st : St S := { cur := cur, stored := [], trace := [] }
  let st := { st with trace := st.trace ++ [.pre .sim] ++ ps.map (fun p => .pre (.pro p.id)) ++ sysCalls .pre [] ps }
  let st := timeEvolDefault act evolves ps stepCount st
  { st with trace := st.trace ++ [.post .sim] ++ ps.map (fun p => .post (.pro p.id)) ++ sysCalls .post [] ps }

/-- `qRes.states[key]` after the run: the states stored under `key`, in order. -/
def statesOf {S : Type} (key : String) (stored : List (String × S)) : List S :=
  (stored.filter fun q => q.1 == key).map (·.2)

/-- `Simulation.timeList` (`QSim.py:123-128`) has the points `x*stepSize` for `x in range(stepCount+1)`; the model lists the
multiples `x`. -/
def timeListSteps (stepCount : Nat) : List Nat := List.range (stepCount + 1)

end Verif.Evol
