import Verif.Cache.Props

/-!
# Model of the caches of open protocols (`classes/QPro.py`)

As `Verif.Cache.Model`, for protocols that are open (`_isOpen`, `QPro.py:117-125`; which ones are is treated in `Verif.Cache.Open`): the
functions are called with lists of dissipators.  `collapseOps` and `decayRates` have the same length at all times and are one list here.
-/
namespace Verif.Cache

/-- Protocols with dissipators. -/
structure OProg (P V M D : Type) where
  /-- the part they share with closed protocols; `U` is not used -/
  base : Prog P V M
  /-- `_dissipator`: jump operators with the stored rates (`environment.py:84-86`) -/
  own : Nat → List D
  /-- `_createUnitary(collapseOps, decayRates)` of a leaf (`QPro.py:400-407`, `QGates.py:72-84`) -/
  U : Nat → (P → V) → V → List D → M

variable {P V M D : Type} [DecidableEq P] [DecidableEq V]

/-- `getUnitary(collapseOps, decayRates)` of a step; a copy calls `unitary()` of the original and does not use the lists
(`QPro.py:372-374`). -/
def getRefO (o : OProg P V M D) (lim : Nat) (g : Nat → Option (List D) → St P V M → Option (Option M × St P V M)) (ds : List D) (r : Ref)
    (st : St P V M) : Option (Option M × St P V M) :=
  match r with
  | .orig j => g j (some ds) st
  | .copy j hc => match unitaryOf o.base lim (fun k st => g k (some (o.own k)) st) j st with
    | none => none
    | some (_, st) =>
      if hc then match hcOf o.base j st with
        | none => none
        | some (h, st) => some (some h, st)
      else some (st.mat j, st)

/-- `_defCreateUnitary(collapseOps, decayRates)` (`QPro.py:330-336`): the loop. -/
def createLoopO (o : OProg P V M D) (lim : Nat) (g : Nat → Option (List D) → St P V M → Option (Option M × St P V M)) (ds : List D) :
    List Ref → M → St P V M → Option (M × St P V M)
  | [], acc, st => some (acc, st)
  | r :: rs, acc, st => match puGet o.base lim rs st with
    | none => none
    | some (vals, st) => match getRefO o lim g ds r st with
      | some (some u, st) => createLoopO o lim g ds rs (o.base.alg.mul u acc) (puSet rs vals st)
      | _ => none

/-- `_createUnitary(collapseOps, decayRates)`. -/
def createO (o : OProg P V M D) (lim : Nat) (g : Nat → Option (List D) → St P V M → Option (Option M × St P V M)) (ds : List D) (i : Nat)
    (st : St P V M) : Option (M × St P V M) :=
  if o.base.leaf i then
    some (o.U i st.σ (st.ratio i) ds, { st with cnt := fun j => if j = i then st.cnt i + 1 else st.cnt j })
  else createLoopO o lim g ds (st.steps i) o.base.alg.one st

/-- `_defGetUnitary(collapseOps, decayRates)` (`QPro.py:229-250`). -/
def defGetO (o : OProg P V M D) (lim : Nat) (g : Nat → Option (List D) → St P V M → Option (Option M × St P V M)) (ds : List D) (i : Nat)
    (st : St P V M) : Option (Option M × St P V M) :=
  match eff o.base lim i st with
  | none => none
  | some (b, st) =>
    if (b && !o.base.fixed i) || (!b && (st.mat i).isNone) then
      match createO o lim g ds i st with
      | none => none
      | some (u, st) => let st := setMat st i (some (o.base.alg.mul u o.base.alg.one)); some (st.mat i, st)
    else some (st.mat i, st)

/-- The lists with which the rest of `getUnitary` works (`QPro.py:209-214`): its own dissipators if it is called without arguments,
otherwise they are added to the given ones. -/
def given (own : List D) : Option (List D) → List D
  | none => own
  | some ds => ds ++ own

/-- `getUnitary(collapseOps, decayRates)` (`QPro.py:208-224`). -/
def getUO (o : OProg P V M D) : Nat → Nat → Option (List D) → St P V M → Option (Option M × St P V M)
  | 0, _, _, _ => none
  | lim + 1, i, args, st => match setups o.base (o.base.upds i) st with
    | none => none
    | some (mems, st) => match defGetO o lim (getUO o lim) (given (o.own i) args) i st with
      | none => none
      | some (m, st) => match clear o.base lim i (setbacks o.base (o.base.upds i) mems (setMat st i m)) with
        | none => none
        | some st => some (st.mat i, st)

/-- `unitary()` (`QPro.py:195-206`): passes the own dissipators. -/
def unitaryO (o : OProg P V M D) (lim : Nat) (i : Nat) (st : St P V M) : Option (Option M × St P V M) :=
  unitaryOf o.base lim (fun k st => getUO o lim k (some (o.own k)) st) i st

/-- `prepare()` (`QPro.py:171-177`). -/
def prepareO (o : OProg P V M D) : Nat → Nat → St P V M → Option (St P V M)
  | 0, _, _ => none
  | lim + 1, i, st =>
    let first : Option (St P V M) := if o.base.fixed i then (getUO o lim i none st).map Prod.snd else some st
    match first with
    | none => none
    | some st => if o.base.leaf i then some st
      else (origs (st.steps i)).foldl (fun (acc : Option (St P V M)) j => acc.bind fun st => prepareO o lim j st) (some st)

/-- What a user does. -/
inductive OCmd (P V : Type)
  | assign (p : P) (v : V)
  | unitary (i : Nat)
  | getUnitary (i : Nat)

/-- Execute one. -/
def execO (o : OProg P V M D) (lim : Nat) : OCmd P V → St P V M → Option (St P V M)
  | .assign p v, st => some (assign o.base p v st)
  | .unitary i, st => (unitaryO o lim i st).map Prod.snd
  | .getUnitary i, st => (getUO o lim i none st).map Prod.snd

/-- Execute several. -/
def runO (o : OProg P V M D) (lim : Nat) : List (OCmd P V) → St P V M → Option (St P V M)
  | [], st => some st
  | c :: cs, st => match execO o lim c st with
    | none => none
    | some st => runO o lim cs st

end Verif.Cache
