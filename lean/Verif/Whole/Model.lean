import Verif.Cache.Props
import Verif.Sweep.Props

/-!
# A whole run of a simulation: sweeps, caches of unitaries, evolution, results

`Verif.Sweep` takes what one run stores as a function of the swept values, `Verif.Evol` takes the action of a step as given, and
`Verif.Cache` treats the cached unitaries.  Here the three are put together as in `modularSweep.py`: the parameters are assigned for
each sweep point in turn, nothing is reset in between, and every step asks the protocols for their (cached) unitaries.

Simplifications: those of `Verif.Cache.Model` (closed systems, fixed dimensions); no samples inside steps (C81), no time-dependent sweeps (C82); the
callbacks do not change parameters; the initial state of a protocol and the number of steps are functions of the current parameters.
-/
namespace Verif.Whole
open Verif.Sweep Verif.Cache

variable {P V M S : Type} [DecidableEq P] [DecidableEq V]

/-- A simulation with its sweeps and protocols. -/
structure Cfg (P V M S : Type) where
  pr : Prog P V M
  /-- the recursion limit -/
  lim : Nat
  sweeps : List (SweepObj V)
  /-- the attributes each sweep assigns: its `sweepKey` in each of its systems (`QSweep.py:255-310`) -/
  targets : List (List P)
  /-- the protocols of the simulation (`subSys.keys()`) -/
  protos : List Nat
  /-- a unitary applied to a state -/
  act : M → S → S
  /-- `protocol.initialState` -/
  init : Nat → (P → V) → S
  stepCount : (P → V) → Nat

/-- The values delivered by the sweeps (`Verif.Sweep.runSweep`) are assigned one sweep after the other (`QSweep.py:325-337`,
`baseClasses.py:92-102`). -/
def sweepAssign (pr : Prog P V M) : List (List P) → List V → St P V M → St P V M
  | ts :: r, v :: vs, st => sweepAssign pr r vs (runUpdate pr ts v st)
  | _, _, st => st

/-- `timeEvolBase` (`modularSweep.py:147-161`) for closed protocols without samples. -/
def advance (cfg : Cfg P V M S) : List Nat → (Nat → S) → St P V M → Option ((Nat → S) × St P V M)
  | [], cur, st => some (cur, st)
  | i :: r, cur, st =>
    match unitary cfg.pr cfg.lim i st with
    | some (some u, st) => advance cfg r (fun j => if j = i then cfg.act u (cur i) else cur j) st
    | _ => none

/-- The loop over the time steps (`modularSweep.py:132-145`); the current states of all protocols after each step. -/
def evolveLoop (cfg : Cfg P V M S) : Nat → (Nat → S) → St P V M → Option (List (Nat → S) × St P V M)
  | 0, _, st => some ([], st)
  | n + 1, cur, st =>
    match advance cfg cfg.protos cur st with
    | none => none
    | some (cur, st) =>
      match evolveLoop cfg n cur st with
      | none => none
      | some (l, st) => some (cur :: l, st)

/-- `_runSweepAndPrep` (`modularSweep.py:70-95`): the current states at all times, the initial ones included. -/
def point (cfg : Cfg P V M S) (fd : FloatDiv) (ind : Nat) (st : St P V M) : Option (List (Nat → S) × St P V M) :=
  match sweepPoint fd (Sweep.prepare {} cfg.sweeps) cfg.sweeps ind with
  | none => none
  | some vals =>
    let st := sweepAssign cfg.pr cfg.targets vals st
    let cur := fun i => cfg.init i st.σ
    match evolveLoop cfg (cfg.stepCount st.σ) cur st with
    | none => none
    | some (l, st) => some (cur :: l, st)

/-- The loop of `nonParalEvol` (`modularSweep.py:52-55`). -/
def seqPoints (cfg : Cfg P V M S) (fd : FloatDiv) : List Nat → St P V M → Option (List (List (Nat → S)) × St P V M)
  | [], st => some ([], st)
  | ind :: r, st =>
    match point cfg fd ind st with
    | none => none
    | some (x, st) =>
      match seqPoints cfg fd r st with
      | none => none
      | some (xs, st) => some (x :: xs, st)

/-- What is stored for protocol `i` (`QSim.py:321-327`). -/
def stored (i : Nat) (l : List (Nat → S)) : PyVal S := .list (l.map fun c => .atom (c i))

/-- `protocol.prepare()` of all protocols (`QSim.py:348-349`). -/
def prepareAll (cfg : Cfg P V M S) : List Nat → St P V M → Option (St P V M)
  | [], st => some st
  | i :: r, st => match Cache.prepare cfg.pr cfg.lim i st with | none => none | some st => prepareAll cfg r st

/-- `Simulation.run(p=False)` (`QSim.py:330-358`, `modularSweep.py:52-56`): the states of protocol `i`, as nested in the results. -/
def runSeq (cfg : Cfg P V M S) (fd : FloatDiv) (i : Nat) (st : St P V M) : Option (PyVal S × St P V M) :=
  match prepareAll cfg cfg.protos st with
  | none => none
  | some st =>
    match seqPoints cfg fd (List.range (Sweep.prepare {} cfg.sweeps).indMultip) st with
    | none => none
    | some (xs, st) =>
      match finalise (Sweep.prepare {} cfg.sweeps).inds (xs.map (stored i)) with
      | none => none
      | some r => some (r, st)

/-- The results of the jobs, in order; each job has its own copy of the simulation as it was before (`modularSweep.py:59-66`; for the
scheduling of the jobs see `Verif.Results`). -/
def jobs (cfg : Cfg P V M S) (fd : FloatDiv) (st : St P V M) : List Nat → Option (List (List (Nat → S)))
  | [] => some []
  | ind :: r =>
    match point cfg fd ind st with
    | none => none
    | some (x, _) =>
      match jobs cfg fd st r with
      | none => none
      | some xs => some (x :: xs)

/-- `Simulation.run(p=True)`. -/
def runPar (cfg : Cfg P V M S) (fd : FloatDiv) (i : Nat) (st : St P V M) : Option (PyVal S × St P V M) :=
  match prepareAll cfg cfg.protos st with
  | none => none
  | some st =>
    match jobs cfg fd st (List.range (Sweep.prepare {} cfg.sweeps).indMultip) with
    | none => none
    | some xs =>
      match finalise (Sweep.prepare {} cfg.sweeps).inds (xs.map (stored i)) with
      | none => none
      | some r => some (r, st)

end Verif.Whole
