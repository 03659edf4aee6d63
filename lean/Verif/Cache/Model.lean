/-!
# Model of the unitary caches of protocols (`classes/QPro.py`)

Protocols and steps are numbers.  Parameters of systems and simulations are abstract names with values; which protocols are
marked by a change of a parameter (the dependents, see `Verif.Flags`) is a table.  Closed systems only (dissipators:
`Verif.Cache.Open`), no time dependent sweep inside a protocol (`Verif.Whole.Inner`), dimensions do not change, and protocols have no dependents.
-/
namespace Verif.Cache

/-- The operations on matrices used by the protocols. -/
structure Alg (M : Type) where
  mul : M → M → M
  one : M
  conj : M → M
  mul_one : ∀ a, mul a one = a

/-- An entry of `steps`: a protocol itself, or a `copyStep` of one (`QPro.py:340-382`), `hc` or not. -/
inductive Ref
  | orig (i : Nat)
  | copy (i : Nat) (hc : Bool)
  deriving DecidableEq, Repr

/-- The protocol an entry stands for. -/
def Ref.id : Ref → Nat
  | .orig i => i
  | .copy i _ => i

/-- An `Update` (`QPro.py:456-508`) without custom function and not auxiliary: the attribute of each system in it, and the value. -/
structure Upd (P V : Type) where
  ps : List P
  value : V

/-- What does not change. -/
structure Prog (P V M : Type) where
  alg : Alg M
  /-- a `freeEvolution` or `Gate`; otherwise a `qProtocol` -/
  leaf : Nat → Bool
  /-- what `_createUnitary` of a leaf gives for given parameters and ratio (`QPro.py:400-407`) -/
  U : Nat → (P → V) → V → M
  /-- the protocols marked by a change of a parameter -/
  marks : P → Nat → Bool
  /-- `__updates` -/
  upds : Nat → List (Upd P V)
  /-- `fixed` -/
  fixed : Nat → Bool

/-- What changes. -/
structure St (P V M : Type) where
  σ : P → V
  ratio : Nat → V
  steps : Nat → List Ref
  flag : Nat → Bool
  /-- `__matrix` -/
  mat : Nat → Option M
  /-- `__matrixHc` -/
  hcm : Nat → Option M
  /-- number of exponentiations -/
  cnt : Nat → Nat

variable {P V M : Type} [DecidableEq P] [DecidableEq V]

/-- Assigning a parameter: `setAttr` (`QSimBase.py:39-63`). -/
def assign (pr : Prog P V M) (p : P) (v : V) (st : St P V M) : St P V M :=
  if v ≠ st.σ p then
    { st with σ := fun q => if q = p then v else st.σ q, flag := fun i => st.flag i || pr.marks p i }
  else st

/-- `Update._runUpdate` (`baseClasses.py:92-102`). -/
def runUpdate (pr : Prog P V M) (ps : List P) (v : V) (st : St P V M) : St P V M :=
  ps.foldl (fun (st : St P V M) p => assign pr p v st) st

/-- `Update._setup` (`QPro.py:498-504`): the memory is the value of the first system only; without systems an `IndexError`. -/
def setup (pr : Prog P V M) (u : Upd P V) (st : St P V M) : Option (V × St P V M) :=
  match u.ps with
  | [] => none
  | p :: _ => some (st.σ p, runUpdate pr u.ps u.value st)

/-- `Update._setback` (`QPro.py:506-508`). -/
def setback (pr : Prog P V M) (u : Upd P V) (mem : V) (st : St P V M) : St P V M :=
  if u.value ≠ mem then runUpdate pr u.ps mem st else st

/-- All updates are set up in order (`QPro.py:218-219`). -/
def setups (pr : Prog P V M) : List (Upd P V) → St P V M → Option (List V × St P V M)
  | [], st => some ([], st)
  | u :: us, st => match setup pr u st with
    | none => none
    | some (m, st) => match setups pr us st with
      | none => none
      | some (ms, st) => some (m :: ms, st)

/-- And set back in the same order (`QPro.py:221-222`). -/
def setbacks (pr : Prog P V M) : List (Upd P V) → List V → St P V M → St P V M
  | u :: us, m :: ms, st => setbacks pr us ms (setback pr u m st)
  | _, _, st => st

def setFlag (st : St P V M) (i : Nat) (b : Bool) : St P V M := { st with flag := fun j => if j = i then b else st.flag j }
def setMat (st : St P V M) (i : Nat) (m : Option M) : St P V M := { st with mat := fun j => if j = i then m else st.mat j }

/-- The loop of the getter below over the steps: stops at the first marked one. -/
def effLoop (g : Nat → St P V M → Option (Bool × St P V M)) : List Ref → St P V M → Option (Bool × St P V M)
  | [], st => some (false, st)
  | r :: rs, st => match g r.id st with
    | none => none
    | some (true, st) => some (true, st)
    | some (false, st) => effLoop g rs st

/-- `_paramUpdated` getter (`baseClasses.py:190-196`; `QPro.py:283-289` for a `qProtocol`, which also stores the answer;
`:360-362` for a copy). -/
def eff (pr : Prog P V M) : Nat → Nat → St P V M → Option (Bool × St P V M)
  | 0, _, _ => none
  | lim + 1, i, st =>
    if pr.leaf i then some (st.flag i, st)
    else match effLoop (eff pr lim) (st.steps i) st with
      | none => none
      | some (true, st) => some (true, setFlag st i true)
      | some (false, st) => some (st.flag i, st)

/-- The part of the steps that are protocols themselves. -/
def origs (rs : List Ref) : List Nat := rs.filterMap fun r => match r with
  | .orig i => some i
  | .copy _ _ => none

/-- `_paramUpdatedToFalse` (`QPro.py:226-227,278-281,357-358`). -/
def clear (pr : Prog P V M) : Nat → Nat → St P V M → Option (St P V M)
  | 0, _, _ => none
  | lim + 1, i, st =>
    let st := setFlag st i false
    if pr.leaf i then some st
    else (origs (st.steps i)).foldl (fun (acc : Option (St P V M)) j => acc.bind fun st => clear pr lim j st) (some st)

/-- `_puValues(step, [])` (`QPro.py:319-325`): the flags of the later steps. -/
def puGet (pr : Prog P V M) (lim : Nat) : List Ref → St P V M → Option (List Bool × St P V M)
  | [], st => some ([], st)
  | r :: rs, st => match eff pr lim r.id st with
    | none => none
    | some (b, st) => match puGet pr lim rs st with
      | none => none
      | some (bs, st) => some (b :: bs, st)

/-- `_puValues(step, vals)` (`QPro.py:326-328`): set them back; nothing happens for copies. -/
def puSet : List Ref → List Bool → St P V M → St P V M
  | .orig j :: rs, b :: bs, st => puSet rs bs (setFlag st j b)
  | .copy _ _ :: rs, _ :: bs, st => puSet rs bs st
  | _, _, st => st

/-- `unitary()` (`QPro.py:195-206`), given `getUnitary()`. -/
def unitaryOf (pr : Prog P V M) (lim : Nat) (g : Nat → St P V M → Option (Option M × St P V M)) (i : Nat) (st : St P V M) :
    Option (Option M × St P V M) :=
  match eff pr lim i st with
  | none => none
  | some (b, st) =>
    if b then
      if pr.fixed i then some (st.mat i, st)
      else match g i st with
        | none => none
        | some (m, st) => let st := setMat st i m; some (st.mat i, st)
    else match st.mat i with
      | some m => some (some m, st)
      | none => match g i st with
        | none => none
        | some (m, st) => let st := setMat st i m; some (st.mat i, st)

/-- `_hc` (`baseClasses.py:154-159`), the dimension being constant. -/
def hcOf (pr : Prog P V M) (i : Nat) (st : St P V M) : Option (M × St P V M) :=
  match st.hcm i with
  | some h => some (h, st)
  | none => match st.mat i with
    | none => none
    | some m => let h := pr.alg.conj m; some (h, { st with hcm := fun j => if j = i then some h else st.hcm j })

/-- `getUnitary` of a step; a copy calls `unitary()` of the original (`QPro.py:372-374`). -/
def getRef (pr : Prog P V M) (lim : Nat) (g : Nat → St P V M → Option (Option M × St P V M)) (r : Ref) (st : St P V M) :
    Option (Option M × St P V M) :=
  match r with
  | .orig j => g j st
  | .copy j hc => match unitaryOf pr lim g j st with
    | none => none
    | some (_, st) =>
      if hc then match hcOf pr j st with
        | none => none
        | some (h, st) => some (some h, st)
      else some (st.mat j, st)

/-- `_defCreateUnitary` (`QPro.py:330-336`): the loop, with the product so far. -/
def createLoop (pr : Prog P V M) (lim : Nat) (g : Nat → St P V M → Option (Option M × St P V M)) :
    List Ref → M → St P V M → Option (M × St P V M)
  | [], acc, st => some (acc, st)
  | r :: rs, acc, st => match puGet pr lim rs st with
    | none => none
    | some (vals, st) => match getRef pr lim g r st with
      | some (some u, st) => createLoop pr lim g rs (pr.alg.mul u acc) (puSet rs vals st)
      | _ => none

/-- `_createUnitary`: exponentiation for a leaf (`QPro.py:400-407`), the product for a `qProtocol`. -/
def create (pr : Prog P V M) (lim : Nat) (g : Nat → St P V M → Option (Option M × St P V M)) (i : Nat) (st : St P V M) :
    Option (M × St P V M) :=
  if pr.leaf i then
    some (pr.U i st.σ (st.ratio i), { st with cnt := fun j => if j = i then st.cnt i + 1 else st.cnt j })
  else createLoop pr lim g (st.steps i) pr.alg.one st

/-- `_defGetUnitary` (`QPro.py:229-250`). -/
def defGet (pr : Prog P V M) (lim : Nat) (g : Nat → St P V M → Option (Option M × St P V M)) (i : Nat) (st : St P V M) :
    Option (Option M × St P V M) :=
  match eff pr lim i st with
  | none => none
  | some (b, st) =>
    if (b && !pr.fixed i) || (!b && (st.mat i).isNone) then
      match create pr lim g i st with
      | none => none
      | some (u, st) => let st := setMat st i (some (pr.alg.mul u pr.alg.one)); some (st.mat i, st)
    else some (st.mat i, st)

/-- `getUnitary()` (`QPro.py:208-224`); the outer `none` is an exception or the recursion limit. -/
def getU (pr : Prog P V M) : Nat → Nat → St P V M → Option (Option M × St P V M)
  | 0, _, _ => none
  | lim + 1, i, st => match setups pr (pr.upds i) st with
    | none => none
    | some (mems, st) => match defGet pr lim (getU pr lim) i st with
      | none => none
      | some (m, st) => match clear pr lim i (setbacks pr (pr.upds i) mems (setMat st i m)) with
        | none => none
        | some st => some (st.mat i, st)

/-- `unitary()`. -/
def unitary (pr : Prog P V M) (lim : Nat) (i : Nat) (st : St P V M) : Option (Option M × St P V M) :=
  unitaryOf pr lim (getU pr lim) i st

/-- `prepare()` (`QPro.py:171-177`), called by `run` before the sweeps (`QSim.py:348-349`). -/
def prepare (pr : Prog P V M) : Nat → Nat → St P V M → Option (St P V M)
  | 0, _, _ => none
  | lim + 1, i, st =>
    let first : Option (St P V M) := if pr.fixed i then (getU pr lim i st).map Prod.snd else some st
    match first with
    | none => none
    | some st => if pr.leaf i then some st
      else (origs (st.steps i)).foldl (fun (acc : Option (St P V M)) j => acc.bind fun st => prepare pr lim j st) (some st)

/-- What a user does between reading results. -/
inductive Cmd (P V : Type)
  | assign (p : P) (v : V)
  | unitary (i : Nat)
  | getUnitary (i : Nat)
  /-- `ratio` setter (`QPro.py:159-161`) -/
  | setRatio (i : Nat) (v : V)
  /-- `addStep` (`QPro.py:302-317`); the choice between a step and a copy of it is made by the caller here -/
  | addStep (i : Nat) (r : Ref)
  | prepare (i : Nat)

/-- Execute one. -/
def exec (pr : Prog P V M) (lim : Nat) : Cmd P V → St P V M → Option (St P V M)
  | .assign p v, st => some (assign pr p v st)
  | .unitary i, st => (unitary pr lim i st).map Prod.snd
  | .getUnitary i, st => (getU pr lim i st).map Prod.snd
  | .setRatio i v, st => some { st with ratio := fun j => if j = i then v else st.ratio j }
  | .addStep i r, st => some { st with steps := fun j => if j = i then st.steps i ++ [r] else st.steps j }
  | .prepare i, st => prepare pr lim i st

/-- Execute several. -/
def run (pr : Prog P V M) (lim : Nat) : List (Cmd P V) → St P V M → Option (St P V M)
  | [], st => some st
  | c :: cs, st => match exec pr lim c st with
    | none => none
    | some st => run pr lim cs st

/-- Newly created protocols (`baseClasses.py:136-143`), with given parameters, ratios and steps. -/
def init (σ : P → V) (ratio : Nat → V) (steps : Nat → List Ref) : St P V M where
  σ := σ
  ratio := ratio
  steps := steps
  flag := fun _ => true
  mat := fun _ => none
  hcm := fun _ => none
  cnt := fun _ => 0

end Verif.Cache
