import Verif.Py.Dict
import Verif.Sweep.Model
import Mathlib.Algebra.Field.Defs

/-!
# Model of result storage, sequential and parallel runs

Source: `/repo/src/quanguru/classes/QRes.py`, `modularSweep.py`, `QSim.py`.
-/
namespace Verif.Results
open Verif.Sweep

variable {K : Type}

/-- One `qResults` object (`QRes.py:95-110`).  `results`/`states` map a key to a Python value (a list while runs are being
collected; anything after `_finalise`), `average` maps a key to `[value, counter]`, `calculated` to a list. -/
structure Res (K : Type) where
  results     : Dict String (PyVal K) := []
  average     : Dict String (K × Nat) := []
  resultsLast : Dict String (PyVal K) := []
  states      : Dict String (PyVal K) := []
  statesLast  : Dict String (PyVal K) := []
  calculated  : Dict String (List (PyVal K)) := []

/-- `d[key].append(v)` on a `defaultdict(list)` (`QRes.py:122,136,163,292,295`); `none` is AttributeError: the stored
object is not a list. -/
def appendTo (d : Dict String (PyVal K)) (key : String) (v : PyVal K) : Option (Dict String (PyVal K)) :=
  match d.get? key with
  | none => some (d.set key (.list [v]))
  | some (.list l) => some (d.set key (.list (l ++ [v])))
  | some (.atom _) => none

/-- What callbacks can do to a `qResults` object: `qRes.singleResult = key, v` (`QRes.py:134-136`; `resultsMethod`,
`QRes.py:156-165`, is in `Results/Record.lean`), `qRes.resAverage = key, x` (`QRes.py:138-154`), storing a state
(`QSim.py:323-327`) and `qRes.calculated = key, v` (`QRes.py:120-122`). -/
inductive Op (K : Type) where
  | single (key : String) (v : PyVal K)
  | avg    (key : String) (x : K)
  | state  (key : String) (v : PyVal K)
  | calcd   (key : String) (v : PyVal K)

/-- `qResBase.resAverage` setter (`QRes.py:138-154`).  `pop` followed by re-insertion only changes the order of the
items.  Simplification: only scalar values (the code has a FIXME for arrays). -/
def resAverage [Field K] (r : Res K) (key : String) (x : K) : Res K :=
  match r.average.get? key with
  | some (val, counter) =>
    let avg := ((counter : K) * val + x) / ((counter : K) + 1)
    { r with average := (r.average.del key).set key (avg, counter + 1),
             resultsLast := r.resultsLast.set key (.atom avg) }
  | none =>
    { r with average := r.average.set key (x, 1),
             resultsLast := r.resultsLast.set key (.atom x) }

/-- Execute one operation on a `qResults` object. -/
def execOp [Field K] (r : Res K) : Op K → Option (Res K)
  | .single key v => (appendTo r.resultsLast key v).map (fun d => { r with resultsLast := d })
  | .avg key x => some (resAverage r key x)
  | .state key v => (appendTo r.statesLast key v).map (fun d => { r with statesLast := d })
  | .calcd key v => some { r with calculated := r.calculated.set key ((r.calculated.get? key).getD [] ++ [v]) }

/-- Execute a list of operations on one object. -/
def execOps [Field K] : Res K → List (Op K) → Option (Res K)
  | r, [] => some r
  | r, o :: os => (execOp r o).bind (fun r' => execOps r' os)

/-- `qResults._allResults` (`QRes.py:209`): all result objects under their (unique) names.  Simplification: the alias part
of the lookup is modelled in `Verif.Names`. -/
abbrev Store (K : Type) := Dict String (Res K)

/-- `_reset` (`QRes.py:241-251`). -/
def reset (st : Store K) : Store K := st.map (fun p => (p.1, {}))

/-- `_resetLast` (`QRes.py:253-263`), also clears the averages. -/
def resetLast (st : Store K) : Store K :=
  st.map (fun p => (p.1, { p.2 with resultsLast := [], statesLast := [], average := [] }))

/-- Execute callbacks' operations, each addressed to a result object by name; an unknown name raises (`none`). -/
def exec [Field K] : Store K → List (String × Op K) → Option (Store K)
  | st, [] => some st
  | st, (n, o) :: os =>
    match st.get? n with
    | none => none
    | some r => (execOp r o).bind (fun r' => exec (st.set n r') os)

/-- The loops of `_organise` (`QRes.py:291-295`): append every item of `last` to the list of the same key. -/
def appendAll (full : Dict String (PyVal K)) : Dict String (PyVal K) → Option (Dict String (PyVal K))
  | [] => some full
  | (k, v) :: rest => (appendTo full k v).bind (fun f => appendAll f rest)

/-- `_organise(keyUni, valUni)` (`QRes.py:285-295`): `r` is `_allResults[keyUni]`, the two dictionaries are
`valUni.resultsDict` and `valUni.states` (the Last ones, `QRes.py:69,76,132,183`). -/
def organise (r : Res K) (resLast stLast : Dict String (PyVal K)) : Option (Res K) :=
  (appendAll r.results resLast).bind fun res =>
    (appendAll r.states stLast).map fun sts => { r with results := res, states := sts }

/-- Monadic map over the values of a dictionary. -/
def mapValues {V : Type} (f : V → Option V) : Dict String V → Option (Dict String V)
  | [] => some []
  | (k, v) :: rest => (f v).bind fun v' => (mapValues f rest).map fun r => (k, v') :: r

/-- `_organiseSingleProcRes` (`QRes.py:297-304`): every object is organised with its own Last dictionaries. -/
def organiseSingle (st : Store K) : Option (Store K) :=
  mapValues (fun r => organise r r.resultsLast r.statesLast) st

/-- `_finalise` (`QRes.py:306-322`): reshape every result/state list; Last becomes the full dictionary.  A value that is
not a list cannot be indexed (`none`). -/
def finaliseVal (inds : List Nat) : PyVal K → Option (PyVal K)
  | .list l => finalise inds l
  | .atom _ => none

/-- `_finalise` (`QRes.py:306-322`) for one object. -/
def finaliseRes (inds : List Nat) (r : Res K) : Option (Res K) :=
  (mapValues (finaliseVal inds) r.results).bind fun res =>
    (mapValues (finaliseVal inds) r.states).map fun sts =>
      { r with results := res, states := sts, resultsLast := res, statesLast := sts }

/-- `_finaliseAll` (`QRes.py:276-283`). -/
def finaliseAll (inds : List Nat) (st : Store K) : Option (Store K) := mapValues (finaliseRes inds) st

/-- A simulation as far as runs are concerned: sweeps, the parameter each sweep writes, and what all callbacks together do
with the results in one time evolution, as a function of the parameters (`modularSweep.py:70-95`).  Simplification: the
physics is the function `sim`; callbacks do not change parameters. -/
structure Cfg (K α : Type) where
  sweeps  : List (SweepObj α)
  targets : List String
  sim     : (String → α) → List (String × Op K)

/-- State of the main (or a worker) process. -/
structure PState (K α : Type) where
  params : String → α
  store  : Store K

/-- `_defSweep` (`QSweep.py:146-165`) for all sweeps of one point: `setattr(system, key, value)` in sweep order.
Simplification: a sweep over several systems/keys counts as several targets only if listed so. -/
def assign {α : Type} (params : String → α) : List String → List α → (String → α)
  | t :: ts, v :: vs => assign (fun s => if s = t then v else params s) ts vs
  | _, _ => params

/-- `_runSweepAndPrep` (`modularSweep.py:70-95`). -/
def runPoint [Field K] {α : Type} (fd : FloatDiv) (cfg : Cfg K α) (ind : Nat) (p : PState K α) :
    Option (PState K α) :=
  (sweepPoint fd (prepare {} cfg.sweeps) cfg.sweeps ind).bind fun vals =>
    let params := assign p.params cfg.targets vals
    (exec (resetLast p.store) (cfg.sim params)).map fun st => ⟨params, st⟩

/-- The loop of `nonParalEvol` (`modularSweep.py:52-55`). -/
def seqLoop [Field K] {α : Type} (fd : FloatDiv) (cfg : Cfg K α) : List Nat → PState K α → Option (PState K α)
  | [], p => some p
  | ind :: rest, p =>
    (runPoint fd cfg ind p).bind fun p' =>
      (organiseSingle p'.store).bind fun st => seqLoop fd cfg rest ⟨p'.params, st⟩

/-- `nonParalEvol` (`modularSweep.py:52-56`). -/
def nonParal [Field K] {α : Type} (fd : FloatDiv) (cfg : Cfg K α) (p : PState K α) : Option (PState K α) :=
  let sw := prepare {} cfg.sweeps
  (seqLoop fd cfg (List.range sw.indMultip) p).bind fun p' =>
    (finaliseAll sw.inds p'.store).map fun st => ⟨p'.params, st⟩

/-- `parallelTimeEvol` (`modularSweep.py:64-66`) in a worker: the job works on an unpickled copy of the simulation as it
was when `pool.map` was called; the result are the dictionaries of every object (`_copyAllResBlank`, `QRes.py:221-239`). -/
def job [Field K] {α : Type} (fd : FloatDiv) (cfg : Cfg K α) (p : PState K α) (ind : Nat) : Option (Store K) :=
  (runPoint fd cfg ind p).map (·.store)

/-- `pool.map` with `chunksize=1`: jobs finish in the order `order` (on whatever workers), each writes its slot, the slots
are returned in job order; a job that never finished leaves `none`. -/
def poolSlots {R : Type} (f : Nat → R) (order : List Nat) : List (Option R) → List (Option R) :=
  fun slots => order.foldl (fun s i => s.set i (some (f i))) slots

/-- `pool.map(f, range(n))`: the list of results, if all jobs have finished. -/
def poolMap {R : Type} (f : Nat → R) (n : Nat) (order : List Nat) : Option (List R) :=
  (poolSlots f order (List.replicate n none)).mapM id

/-- One returned dictionary in `_organiseMultiProcRes` (`QRes.py:272-273`). -/
def organiseJob (st : Store K) : Store K → Option (Store K)
  | [] => some st
  | (n, r) :: rest =>
    match st.get? n with
    | none => none
    | some own => (organise own r.resultsLast r.statesLast).bind fun own' => organiseJob (st.set n own') rest

/-- The loop of `_organiseMultiProcRes` (`QRes.py:271-273`); an exception inside a job is re-raised by `map`. -/
def organiseMulti : Store K → List (Option (Store K)) → Option (Store K)
  | st, [] => some st
  | _, none :: _ => none
  | st, some r :: rest => (organiseJob st r).bind fun st' => organiseMulti st' rest

/-- `paralEvol` (`modularSweep.py:59-61`); the parameters of the main process are not touched. -/
def paral [Field K] {α : Type} (fd : FloatDiv) (cfg : Cfg K α) (order : List Nat) (p : PState K α) :
    Option (PState K α) :=
  let sw := prepare {} cfg.sweeps
  (poolMap (job fd cfg p) sw.indMultip order).bind fun rs =>
    (organiseMulti p.store rs).bind fun st =>
      (finaliseAll sw.inds st).map fun st' => ⟨p.params, st'⟩

/-- `Simulation.run` (`QSim.py:330-354`): optional reset, then `_poolMemory.run`.  `mode = none` is a single process run,
`mode = some order` a multi-process one.  `QSim.py:355-359` (copying of the states, return value) is in `Results/Return.lean`.
`prepare {}` starts from fresh counters; counters left over from removed sweeps are in `Sweep/Hist.lean`. -/
def run [Field K] {α : Type} (fd : FloatDiv) (cfg : Cfg K α) (mode : Option (List Nat)) (resetRes : Bool)
    (p : PState K α) : Option (PState K α) :=
  let p := if resetRes then { p with store := reset p.store } else p
  match mode with
  | none => nonParal fd cfg p
  | some order => paral fd cfg order p

end Verif.Results
