import Verif.Whole.Props
import Verif.Bound.Model
import Verif.Tree.Ham

/-!
# Terms with a `timeDependency` function

Asking a protocol for its unitary first calls `_timeDependency` of its `superSys` (`QPro.py:198-199,216-217`), which hands the current time
of a simulation to the functions the user gave to the terms; these assign attributes, which marks the protocols.  The definitions of
`Verif.Cache.Model` and `Verif.Whole.Model` are repeated with these calls.

Simplifications: those of `Verif.Whole.Model`; a function is a sequence of assignments whose values are computed from the parameters and
the time; it does not change time parameters of simulations or the structure.
-/
namespace Verif.TimeDep
open Verif.Sweep Verif.Cache

variable {P V M S : Type} [DecidableEq P] [DecidableEq V]

/-! ### The time -/

/-- The arithmetic of `_currentTime`. -/
structure Clock (V : Type) where
  /-- `dt * n` -/
  times : V → Int → V
  zero : V

/-- `Simulation._currentTime` (`QSim.py:109-121`): that of the simulation it is bound to, else `stepSize * (index + 1)`; any exception
(no step size, recursion limit) gives 0. -/
def currentTime (c : Clock V) (h : Bound.Heap V) (index : Nat → Int) : Nat → Nat → V
  | 0, _ => c.zero
  | lim + 1, s => match h.tb s with
    | some b => currentTime c h index lim b
    | none => match Bound.readF h lim s .step with
      | some (some dt) => c.times dt (index s + 1)
      | _ => c.zero

/-! ### The calls -/

/-- What a function assigns: the attribute, and its new value from the current parameters and the time. -/
abbrev TimeFn (P V : Type) := P × ((P → V) → V → V)

/-- The functions are called one after the other with the same time (`QTerms.py:73-82`). -/
def callFns (pr : Prog P V M) (t : V) : List (TimeFn P V) → St P V M → St P V M
  | [], st => st
  | f :: fs, st => callFns pr t fs (assign pr f.1 (f.2 st.σ t) st)

mutual
/-- The functions called by `_timeDependency(time)` of the system at path `p` (`QSystem.py:139-150`), given those of the terms of each
system: sub-systems, then terms. -/
def visit (F : List Nat → List (TimeFn P V)) (p : List Nat) : Tree.Sys → List (TimeFn P V)
  | .node _ _ _ _ s => visitSubs F p 0 s ++ F p
/-- The loop over the sub-systems. -/
def visitSubs (F : List Nat → List (TimeFn P V)) (p : List Nat) (i : Nat) : List Tree.Sys → List (TimeFn P V)
  | [] => []
  | q :: r => visit F (p ++ [i]) q ++ visitSubs F p (i + 1) r
end

/-- A simulation with sweeps and protocols, and what the calls need. -/
structure Cfg (P V M S : Type) extends Whole.Cfg P V M S where
  clock : Clock V
  /-- the simulations and their bounds, for given parameters -/
  sims : (P → V) → Bound.Heap V
  /-- `__index` of the simulations before the run -/
  index : Nat → Int
  /-- the simulation that is run -/
  run : Nat
  /-- `superSys.simulation` of a protocol -/
  simOf : Nat → Nat
  /-- the functions called by `superSys._timeDependency()`; none without `superSys` -/
  fns : Nat → List (TimeFn P V)

/-- The current time of `superSys.simulation` of protocol `i` during step `ind` of the run (`modularSweep.py:133`). -/
def timeOf (cfg : Cfg P V M S) (ind : Nat) (i : Nat) (σ : P → V) : V :=
  currentTime cfg.clock (cfg.sims σ) (fun s => if s = cfg.run then (ind : Int) else cfg.index s) cfg.lim (cfg.simOf i)

/-- `superSys._timeDependency()` of protocol `i`. -/
def hook (cfg : Cfg P V M S) (ind : Nat) (i : Nat) (st : St P V M) : St P V M :=
  callFns cfg.pr (timeOf cfg ind i st.σ) (cfg.fns i) st

/-- `unitary()` (`QPro.py:195-206`) with the call. -/
def unitaryOfT (cfg : Cfg P V M S) (ind lim : Nat) (g : Nat → St P V M → Option (Option M × St P V M)) (i : Nat) (st : St P V M) :
    Option (Option M × St P V M) := unitaryOf cfg.pr lim g i (hook cfg ind i st)

/-- `getUnitary` of a step; a copy calls `unitary()` of the original (`QPro.py:372-374`). -/
def getRefT (cfg : Cfg P V M S) (ind lim : Nat) (g : Nat → St P V M → Option (Option M × St P V M)) (r : Ref) (st : St P V M) :
    Option (Option M × St P V M) :=
  match r with
  | .orig j => g j st
  | .copy j hc => match unitaryOfT cfg ind lim g j st with
    | none => none
    | some (_, st) =>
      if hc then match hcOf cfg.pr j st with
        | none => none
        | some (h, st) => some (some h, st)
      else some (st.mat j, st)

/-- The loop of `_defCreateUnitary` (`QPro.py:330-336`). -/
def createLoopT (cfg : Cfg P V M S) (ind lim : Nat) (g : Nat → St P V M → Option (Option M × St P V M)) :
    List Ref → M → St P V M → Option (M × St P V M)
  | [], acc, st => some (acc, st)
  | r :: rs, acc, st => match puGet cfg.pr lim rs st with
    | none => none
    | some (vals, st) => match getRefT cfg ind lim g r st with
      | some (some u, st) => createLoopT cfg ind lim g rs (cfg.pr.alg.mul u acc) (puSet rs vals st)
      | _ => none

/-- `_createUnitary` (`QPro.py:400-407`, `:330-336`). -/
def createT (cfg : Cfg P V M S) (ind lim : Nat) (g : Nat → St P V M → Option (Option M × St P V M)) (i : Nat) (st : St P V M) :
    Option (M × St P V M) :=
  if cfg.pr.leaf i then
    some (cfg.pr.U i st.σ (st.ratio i), { st with cnt := fun j => if j = i then st.cnt i + 1 else st.cnt j })
  else createLoopT cfg ind lim g (st.steps i) cfg.pr.alg.one st

/-- `_defGetUnitary` (`QPro.py:229-250`). -/
def defGetT (cfg : Cfg P V M S) (ind lim : Nat) (g : Nat → St P V M → Option (Option M × St P V M)) (i : Nat) (st : St P V M) :
    Option (Option M × St P V M) :=
  match eff cfg.pr lim i st with
  | none => none
  | some (b, st) =>
    if (b && !cfg.pr.fixed i) || (!b && (st.mat i).isNone) then
      match createT cfg ind lim g i st with
      | none => none
      | some (u, st) => let st := setMat st i (some (cfg.pr.alg.mul u cfg.pr.alg.one)); some (st.mat i, st)
    else some (st.mat i, st)

/-- `getUnitary()` (`QPro.py:208-224`): the functions are called again, before the updates. -/
def getUT (cfg : Cfg P V M S) (ind : Nat) : Nat → Nat → St P V M → Option (Option M × St P V M)
  | 0, _, _ => none
  | lim + 1, i, st => match setups cfg.pr (cfg.pr.upds i) (hook cfg ind i st) with
    | none => none
    | some (mems, st) => match defGetT cfg ind lim (getUT cfg ind lim) i st with
      | none => none
      | some (m, st) => match clear cfg.pr lim i (setbacks cfg.pr (cfg.pr.upds i) mems (setMat st i m)) with
        | none => none
        | some st => some (st.mat i, st)

/-- `unitary()` during step `ind`. -/
def unitaryT (cfg : Cfg P V M S) (ind : Nat) (i : Nat) (st : St P V M) : Option (Option M × St P V M) :=
  unitaryOfT cfg ind cfg.lim (getUT cfg ind cfg.lim) i st

/-! ### The run -/

/-- `timeEvolBase` (`modularSweep.py:147-161`) for closed protocols without samples. -/
def advance (cfg : Cfg P V M S) (ind : Nat) : List Nat → (Nat → S) → St P V M → Option ((Nat → S) × St P V M)
  | [], cur, st => some (cur, st)
  | i :: r, cur, st =>
    match unitaryT cfg ind i st with
    | some (some u, st) => advance cfg ind r (fun j => if j = i then cfg.act u (cur i) else cur j) st
    | _ => none

/-- The loop over the time steps (`modularSweep.py:132-145`), from step `ind` on. -/
def evolveLoop (cfg : Cfg P V M S) (ind : Nat) : Nat → (Nat → S) → St P V M → Option (List (Nat → S) × St P V M)
  | 0, _, st => some ([], st)
  | n + 1, cur, st =>
    match advance cfg ind cfg.protos cur st with
    | none => none
    | some (cur, st) =>
      match evolveLoop cfg (ind + 1) n cur st with
      | none => none
      | some (l, st) => some (cur :: l, st)

/-- `_runSweepAndPrep` and `timeEvolDefault` (`modularSweep.py:70-95,110-145`). -/
def point (cfg : Cfg P V M S) (fd : FloatDiv) (ind : Nat) (st : St P V M) : Option (List (Nat → S) × St P V M) :=
  match sweepPoint fd (Sweep.prepare {} cfg.sweeps) cfg.sweeps ind with
  | none => none
  | some vals =>
    let st := Whole.sweepAssign cfg.pr cfg.targets vals st
    let cur := fun i => cfg.init i st.σ
    match evolveLoop cfg 0 (cfg.stepCount st.σ) cur st with
    | none => none
    | some (l, st) => some (cur :: l, st)

/-- The loop of `nonParalEvol` (`modularSweep.py:52-55`). -/
def seqPoints (cfg : Cfg P V M S) (fd : FloatDiv) : List Nat → St P V M → Option (List (List (Nat → S)) × St P V M)
  | [], st => some ([], st)
  | ind :: r, st =>
    match point cfg fd ind st with
    | none => none
    | some (x, st) =>
      match seqPoints cfg fd r st with
      | none => none
      | some (xs, st) => some (x :: xs, st)

/-- `Simulation.run(p=False)` (`QSim.py:330-358`): the states of protocol `i`, as nested in the results.  `prepare()` does nothing for
protocols that are not fixed (`QPro.py:171-177`), and only these are considered here. -/
def runSeq (cfg : Cfg P V M S) (fd : FloatDiv) (i : Nat) (st : St P V M) : Option (PyVal S × St P V M) :=
  match seqPoints cfg fd (List.range (Sweep.prepare {} cfg.sweeps).indMultip) st with
  | none => none
  | some (xs, st) =>
    match finalise (Sweep.prepare {} cfg.sweeps).inds (xs.map (Whole.stored i)) with
    | none => none
    | some r => some (r, st)

/-- The jobs of `paralEvol`, each with its own copy of the simulation (`modularSweep.py:59-66`). -/
def jobs (cfg : Cfg P V M S) (fd : FloatDiv) (st : St P V M) : List Nat → Option (List (List (Nat → S)))
  | [] => some []
  | ind :: r =>
    match point cfg fd ind st with
    | none => none
    | some (x, _) =>
      match jobs cfg fd st r with
      | none => none
      | some xs => some (x :: xs)

/-- `Simulation.run(p=True)`. -/
def runPar (cfg : Cfg P V M S) (fd : FloatDiv) (i : Nat) (st : St P V M) : Option (PyVal S × St P V M) :=
  match jobs cfg fd st (List.range (Sweep.prepare {} cfg.sweeps).indMultip) with
  | none => none
  | some xs =>
    match finalise (Sweep.prepare {} cfg.sweeps).inds (xs.map (Whole.stored i)) with
    | none => none
    | some r => some (r, st)

end Verif.TimeDep
