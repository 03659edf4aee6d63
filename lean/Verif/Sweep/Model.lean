/-!
# Model of the multi-parameter sweep machinery

Source: `/repo/src/quanguru/classes/QSweep.py`, `modularSweep.py`, `QRes.py`.
-/
namespace Verif.Sweep

/-- One `_sweep` object (`QSweep.py:37-174`): the list of values (`sweepList`, `QSweep.py:124-144`) and the
`combinatorial` flag (`QSweep.py:84`).  Simplification: the swept systems and the attribute name are abstracted, a sweep
only *delivers* a value (`_defSweep`, `QSweep.py:146-165`); the list is already materialised. -/
structure SweepObj (α : Type) where
  values : List α
  comb   : Bool
deriving Repr, DecidableEq

/-- State of a `Sweep` container that `prepare` writes (`QSweep.py:198-210`): `__inds` starts as `[]`, `__indMultip`
as `1`. -/
structure SweepState where
  inds      : List Nat := []
  indMultip : Nat := 1
deriving Repr, DecidableEq

/-- The loop of `Sweep.prepare` (`QSweep.py:320-322`): `indx` counts the sweeps, a length is inserted at position 0 for
the first sweep and for every combinatorial one. -/
def prepareLoop {α : Type} : Nat → List (SweepObj α) → List Nat → List Nat
  | _, [], inds => inds
  | indx, s :: ss, inds =>
    prepareLoop (indx + 1) ss (if s.comb || indx == 0 then s.values.length :: inds else inds)

/-- `reduce(lambda x, y: x*y, inds)` (`QSweep.py:323`), for a non-empty list; an empty list raises TypeError in Python but
`inds` is never empty there because the first sweep always inserts its length. -/
def reduceMul : List Nat → Nat
  | [] => 1
  | x :: xs => xs.foldl (· * ·) x

/-- `Sweep.prepare` (`QSweep.py:312-323`): nothing is changed when there are no sweeps. -/
def prepare {α : Type} (st : SweepState) (sweeps : List (SweepObj α)) : SweepState :=
  if sweeps.length > 0 then
    let inds := prepareLoop 0 sweeps []
    { inds := inds, indMultip := reduceMul inds }
  else st

/-- True division of two integers whose quotient is an integer, as computed by Python/IEEE doubles and used as the next
value of `ind` in `_indicesForSweep` (`QSweep.py:356`).  The result of a correctly rounded division is only known to be
exact when the quotient is at most `2^53`; nothing is assumed otherwise. -/
structure FloatDiv where
  div   : Nat → Nat → Nat
  exact : ∀ n a, 0 < a → a ∣ n → n / a ≤ 2 ^ 53 → div n a = n / a

/-- The loop of `Sweep._indicesForSweep` (`QSweep.py:339-358`): `remain = ind % arg; ind = (ind-remain)/arg;
indices.insert(0, int(remain))`.  `arg = 0` raises ZeroDivisionError (`none`). -/
def indicesLoop (fd : FloatDiv) : Nat → List Nat → List Nat → Option (List Nat)
  | _, [], indices => some indices
  | ind, arg :: args, indices =>
    if arg = 0 then none
    else
      let remain := ind % arg
      indicesLoop fd (fd.div (ind - remain) arg) args (remain :: indices)

/-- `Sweep._indicesForSweep(ind, *args)` (`QSweep.py:341-358`). -/
def indicesForSweep (fd : FloatDiv) (ind : Nat) (args : List Nat) : Option (List Nat) :=
  indicesLoop fd ind args []

/-- `Sweep.runSweep` (`QSweep.py:325-337`) followed by `_sweep.runSweep`/`_defSweep` (`QSweep.py:167-174, 146-165`):
`indx` is increased for every combinatorial sweep (also for the first one) *before* it is used; the sweep then delivers
`sweepList[indList[indx]]`.  Both list accesses raise IndexError when out of range (`none`).  The delivered values are
returned in sweep order. -/
def runSweepLoop {α : Type} (indList : List Nat) : Nat → List (SweepObj α) → Option (List α)
  | _, [] => some []
  | indx, s :: ss =>
    let indx := if s.comb then indx + 1 else indx
    match indList[indx]? with
    | none => none
    | some i =>
      match s.values[i]? with
      | none => none
      | some v =>
        match runSweepLoop indList indx ss with
        | none => none
        | some vs => some (v :: vs)

/-- `Sweep.runSweep(indList)` (`QSweep.py:325-337`). -/
def runSweep {α : Type} (sweeps : List (SweepObj α)) (indList : List Nat) : Option (List α) :=
  runSweepLoop indList 0 sweeps

/-- The sweep part of `_runSweepAndPrep` (`modularSweep.py:70-72`): sweeps only run when `len(inds) > 0`. -/
def sweepPoint {α : Type} (fd : FloatDiv) (st : SweepState) (sweeps : List (SweepObj α)) (ind : Nat) :
    Option (List α) :=
  if st.inds.length > 0 then
    match indicesForSweep fd ind st.inds with
    | none => none
    | some l => runSweep sweeps l
  else some []

/-- Python values stored as results: an opaque object or a list. -/
inductive PyVal (α : Type) where
  | atom : α → PyVal α
  | list : List (PyVal α) → PyVal α
deriving Repr

/-- `QRes.py:337-340`: a list with exactly one element is replaced by this element. -/
def unwrapSingle {α : Type} : PyVal α → PyVal α
  | .list [x] => x
  | v => v

/-- The innermost loop of `_reShape` (`QRes.py:335-343`): `n` times append `lis[totalCount]`; `none` is IndexError. -/
def reShapeLeaf {α : Type} (lis : List (PyVal α)) : Nat → Nat → Option (List (PyVal α) × Nat)
  | 0, total => some ([], total)
  | n + 1, total =>
    match lis[total]? with
    | none => none
    | some v =>
      match reShapeLeaf lis n (total + 1) with
      | none => none
      | some (rest, t) => some (unwrapSingle v :: rest, t)

/-- Repeat a stateful action `n` times collecting the results (`for _ in range(...)`, `QRes.py:332-334`). -/
def repeatCollect {α : Type} (f : Nat → Option (List (PyVal α) × Nat)) : Nat → Nat → Option (List (PyVal α) × Nat)
  | 0, total => some ([], total)
  | n + 1, total =>
    match f total with
    | none => none
    | some (l, t) =>
      match repeatCollect f n t with
      | none => none
      | some (rest, t') => some (.list l :: rest, t')

/-- `qResults._reShape` (`QRes.py:324-344`).  Simplification: the pair (`inds`, `counter`) is replaced by the remaining
list `inds[counter:]`; `inds = []` raises IndexError (`none`), the callers never do that (`QRes.py:311,317`). -/
def reShape {α : Type} (lis : List (PyVal α)) : List Nat → Nat → Option (List (PyVal α) × Nat)
  | [], _ => none
  | [n], total => reShapeLeaf lis n total
  | n :: m :: rest, total => repeatCollect (reShape lis (m :: rest)) n total

/-- `qResults._finalise` for one key (`QRes.py:306-322`): reshape with the reversed `inds` if there are sweeps, otherwise
`val[0]`. -/
def finalise {α : Type} (inds : List Nat) (val : List (PyVal α)) : Option (PyVal α) :=
  if inds = [] then val[0]?
  else match reShape val inds.reverse 0 with
    | none => none
    | some (l, _) => some (.list l)

/-- `nonParalEvol` (`modularSweep.py:52-56`) for one result key: `store vals` is what one run (with the swept parameters
equal to `vals`) leaves under the key; `_organiseSingleProcRes` appends it (`QRes.py:285-304`), `_finaliseAll` reshapes.
Simplification: the per-point simulation is a pure function of the swept values. -/
def collectRuns {α β : Type} (point : Nat → Option (List α)) (store : List α → PyVal β) :
    List Nat → Option (List (PyVal β))
  | [] => some []
  | ind :: rest =>
    match point ind with
    | none => none
    | some vals =>
      match collectRuns point store rest with
      | none => none
      | some rs => some (store vals :: rs)

/-- `Simulation.run` restricted to sweeps and one key: `prepare`, loop over `range(indMultip)`, `_finalise`
(`QSim.py:350`, `modularSweep.py:52-56`). -/
def runAll {α β : Type} (fd : FloatDiv) (sweeps : List (SweepObj α)) (store : List α → PyVal β) : Option (PyVal β) :=
  let st := prepare {} sweeps
  match collectRuns (sweepPoint fd st sweeps) store (List.range st.indMultip) with
  | none => none
  | some l => finalise st.inds l

end Verif.Sweep
