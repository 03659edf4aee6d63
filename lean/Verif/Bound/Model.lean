/-!
# Model of bound parameters of simulations (`classes/QSimBase.py`)

A simulation is a number; each has one `_parameter` object per key.  `_bound` of a parameter is only ever set to the parameter
with the same key of another simulation, so it is modelled by that simulation.  Update flags are the subject of
`Verif.Flags`.  An exception ends the program (`none`); what it leaves behind is not modelled.

The values are of any type with the three operations used by the code, so nothing depends on exact arithmetic.
-/
namespace Verif.Bound

/-- The arithmetic used by the time parameters; `none` is an exception. -/
structure Arith (V : Type) where
  /-- `int((T // dt) + 1)` -/
  count : V → V → Option V
  /-- `T / n` -/
  div : V → V → Option V
  /-- `n * dt` -/
  mul : V → V → V

/-- The parameters: `__stepSize`, `__totalTime`, `__stepCount`, `__samples` (`QSimBase.py:317-330`), `__delStates` and
`__initialStateInput` (`:152-172`).  `__initialState` itself (a matrix created on reading) is in `Verif.Bound.State`. -/
inductive Key
  | step | total | count | samples | delStates | stateInput
  deriving DecidableEq, Repr

/-- `_parameter._bound`: `None`, `False` after an assignment, or another parameter (`QSimBase.py:104-107`). -/
inductive B
  | none | broken | to (s : Nat)
  deriving DecidableEq, Repr

/-- All simulations. -/
structure Heap (V : Type) where
  /-- `_parameter._value` -/
  val : Nat → Key → Option V
  /-- `_parameter._bound` -/
  bnd : Nat → Key → B
  /-- `timeBase.__bound` -/
  tb : Nat → Option Nat
  /-- the simulations in `__paramBound` (the other dependents are left out) -/
  dep : Nat → List Nat

variable {V : Type} [DecidableEq V]

/-- `_parameter.value` getter (`QSimBase.py:109-124`); `none` is a `RecursionError` with the given recursion limit. -/
def readF (h : Heap V) : Nat → Nat → Key → Option (Option V)
  | 0, _, _ => none
  | lim + 1, s, k => match h.bnd s k with
    | .to t => readF h lim t k
    | _ => some (h.val s k)

/-- Write `_value` only. -/
def putVal (h : Heap V) (s : Nat) (k : Key) (v : Option V) : Heap V :=
  { h with val := fun x y => if x = s ∧ y = k then v else h.val x y }

/-- Write `_bound` only. -/
def putBnd (h : Heap V) (s : Nat) (k : Key) (b : B) : Heap V :=
  { h with bnd := fun x y => if x = s ∧ y = k then b else h.bnd x y }

/-- `_parameter.value` setter (`QSimBase.py:126-129`). -/
def setValue (h : Heap V) (s : Nat) (k : Key) (v : Option V) : Heap V := putVal (putBnd h s k .broken) s k v

/-- Lines 57-59 of `setAttrParam`: leave the simulation one is bound to. -/
def breakTime (h : Heap V) (s : Nat) : Heap V :=
  match h.tb s with
  | none => h
  | some b => { h with
      dep := fun x => if x = b then (h.dep b).filter (· ≠ s) else h.dep x
      tb := fun x => if x = s then none else h.tb x }

/-- `setAttrParam` (`QSimBase.py:49-63`) without the update flag. -/
def setAttrParam (lim : Nat) (h : Heap V) (s : Nat) (k : Key) (v : Option V) : Option (Heap V) :=
  match readF h lim s k with
  | none => none
  | some old =>
    let h := breakTime h s
    some (if v ≠ old then setValue h s k v else h)

/-- `if p._bound not in (None, False): p._value = p._bound._value` at the start of the time setters. -/
def copyFromBound (h : Heap V) (s : Nat) (k : Key) : Heap V :=
  match h.bnd s k with
  | .to t => putVal h s k (h.val t k)
  | _ => h

variable (A : Arith V)

/-- `totalTime` setter (`QSimBase.py:345-351`). -/
def setTotal (lim : Nat) (h : Heap V) (s : Nat) (v : V) : Option (Heap V) :=
  match setAttrParam lim (copyFromBound h s .step) s .total (some v) with
  | none => none
  | some h => match readF h lim s .step with
    | none => none
    | some none => some h
    | some (some dt) => (A.count v dt).map fun n => setValue h s .count (some n)

/-- `stepSize` setter (`QSimBase.py:395-401`). -/
def setStep (lim : Nat) (h : Heap V) (s : Nat) (v : V) : Option (Heap V) :=
  match setAttrParam lim (copyFromBound h s .total) s .step (some v) with
  | none => none
  | some h => match readF h lim s .total with
    | none => none
    | some none => some h
    | some (some T) => (A.count T v).map fun n => setValue h s .count (some n)

/-- `stepCount` setter (`QSimBase.py:374-380`). -/
def setCount (lim : Nat) (h : Heap V) (s : Nat) (v : V) : Option (Heap V) :=
  match setAttrParam lim (copyFromBound h s .total) s .count (some v) with
  | none => none
  | some h => match readF h lim s .total with
    | none => none
    | some none => some h
    | some (some T) => (A.div T v).map fun dt => setValue h s .step (some dt)

/-- `stepCount` getter (`QSimBase.py:363-372`): value and state; reading writes `stepCount` and possibly `totalTime`. -/
def getCount (lim : Nat) (h : Heap V) (s : Nat) : Option (V × Heap V) :=
  match readF h lim s .total, readF h lim s .step, readF h lim s .count with
  | some none, some none, some none => none
  | some none, some (some dt), some (some n) =>
    let T := A.mul n dt
    (A.count T dt).map fun m => (m, setValue (setValue h s .total (some T)) s .count (some m))
  | some (some T), some (some dt), _ => (A.count T dt).map fun m => (m, setValue h s .count (some m))
  | _, _, _ => none

/-- The property setters: time parameters as above, `samples` through `setAttrParam` (`:412-414`), the others by plain
assignment to `.value` (`:254-259`, `:276-278`). -/
def setProp (lim : Nat) (h : Heap V) (s : Nat) (k : Key) (v : V) : Option (Heap V) :=
  match k with
  | .total => setTotal A lim h s v
  | .step => setStep A lim h s v
  | .count => setCount A lim h s v
  | .samples => setAttrParam lim h s .samples (some v)
  | .delStates => some (setValue h s .delStates (some v))
  | .stateInput => some (setValue h s .stateInput (some v))

/-- `_boundTree(osys)` (`QSimBase.py:425-437`); `none` is a `RecursionError`. -/
def boundTree (h : Heap V) : Nat → Nat → Option (List Nat)
  | 0, _ => none
  | lim + 1, o => match h.tb o with
    | none => some []
    | some b => (boundTree h lim b).map (b :: ·)

/-- The keys with a functional relation, in the order of the code. -/
def timeKeys : List Key := [.step, .total, .count]

/-- One pass of the loop in `_bound` (`QSimBase.py:478-489`); the flag is `bounding`. -/
def bindKey (lim : Nat) (s o : Nat) (h : Heap V) (bounding : Bool) (k : Key) : Option (Heap V × Bool) :=
  if h.bnd s k = .broken then
    let h1 : Option (Heap V) := match h.val o k with
      | none => some h
      | some _ => match h.val s k with
        | some v => setProp A lim h s k v
        | none => none
    match h1 with
    | none => none
    | some h1 =>
      if bounding then
        match timeKeys.find? fun k' => h1.bnd s k' = .none && (h1.val o k').isSome with
        | none => some (h1, false)
        | some k' => match h1.val o k' with
          | some v => (setProp A lim h1 s k' v).map fun h2 => (h2, false)
          | none => some (h1, false)
      else some (h1, false)
  else some (h, bounding)

/-- Line 494-495: bind a parameter if it has never been set, or if `re`. -/
def rebind (s o : Nat) (re : Bool) (h : Heap V) (k : Key) : Heap V :=
  if h.bnd s k = .none ∨ re = true then putBnd h s k (.to o) else h

/-- `timeBase._bound` (`QSimBase.py:439-498`). -/
def bind (lim : Nat) (h : Heap V) (s o : Nat) (re : Bool) : Option (Heap V) :=
  match boundTree h lim o with
  | none => none
  | some tree =>
    if s ∈ tree then some h
    else
      let h : Heap V := { h with
        dep := fun x => if x = o then (if s ∈ h.dep o then h.dep o else h.dep o ++ [s]) else h.dep x
        tb := fun x => if x = s then some o else h.tb x }
      match bindKey A lim s o h true .step with
      | none => none
      | some (h, b) => match bindKey A lim s o h b .total with
        | none => none
        | some (h, b) => match bindKey A lim s o h b .count with
          | none => none
          | some (h, _) =>
            some ([Key.step, .total, .count, .delStates, .stateInput, .samples].foldl (rebind s o re) h)

/-- A statement of the user or of the library. -/
inductive Cmd (V : Type)
  | set (s : Nat) (k : Key) (v : V)
  | readCount (s : Nat)
  | bind (s o : Nat) (re : Bool)

/-- Execute a statement. -/
def exec (lim : Nat) : Cmd V → Heap V → Option (Heap V)
  | .set s k v, h => setProp A lim h s k v
  | .readCount s, h => (getCount A lim h s).map Prod.snd
  | .bind s o re, h => Bound.bind A lim h s o re

/-- Execute a program. -/
def run (lim : Nat) : List (Cmd V) → Heap V → Option (Heap V)
  | [], h => some h
  | c :: cs, h => match exec A lim c h with
    | none => none
    | some h => run lim cs h

/-- Newly created simulations; `samples` is 1 and `delStates` the configured default. -/
def fresh (one dflt : V) : Heap V where
  val := fun _ k => match k with
    | .samples => some one
    | .delStates => some dflt
    | _ => none
  bnd := fun _ _ => .none
  tb := fun _ => none
  dep := fun _ => []

/-- What the user reads: `sim.stepSize` etc. (the `stepCount` getter is `getCount`). -/
def read (lim : Nat) (h : Heap V) (s : Nat) (k : Key) : Option (Option V) := readF h lim s k

end Verif.Bound
