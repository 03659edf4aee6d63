import Verif.Sweep.Range
import Mathlib.Tactic.Ring
import Mathlib.Tactic.NormNum

/-!
# C90: which values are accepted

The checks of types and values (`classes/exceptions.py:16-58`) and the setters that use them: `frequency` of a term and of a system, `dimension`,
`key` of a sweep or update, the name of an object.  Python's and NumPy's classes are modelled by what `isinstance` answers.  Simplifications:
texts of messages are left out (but not exceptions while they are made); no NaN.
-/
namespace Verif.Args

/-- A Python object, as far as these functions ask. -/
inductive Py
  | none
  | bool (b : Bool)
  | int (z : ℤ)
  | float (q : ℚ)
  | complex (re im : ℚ)
  | str (s : String)
  /-- `numpy.int64`, what an array of integers has as elements -/
  | npInt (z : ℤ)
  /-- `numpy.float64` -/
  | npFloat (q : ℚ)
  /-- `numpy.float32` -/
  | npFloat32 (q : ℚ)
  /-- `numpy.complex128` -/
  | npComplex (re im : ℚ)
  /-- a list; its elements are never looked at -/
  | list
  | object (id : ℕ)
deriving DecidableEq

/-- The classes that occur in the checks. -/
inductive Ty
  | noneType | bool | int | float | complex | str | npInteger | list
deriving DecidableEq

/-- `isinstance(x, t)`: `bool` is derived from `int`; `numpy.float64` is derived from `float` and `numpy.complex128` from `complex`, but
`numpy.int64` is not derived from `int`, nor `numpy.float32` from `float`. -/
def isinstance : Py → Ty → Bool
  | .none, .noneType => true
  | .bool _, .bool => true
  | .bool _, .int => true
  | .int _, .int => true
  | .float _, .float => true
  | .complex _ _, .complex => true
  | .str _, .str => true
  | .npInt _, .npInteger => true
  | .npFloat _, .float => true
  | .npComplex _ _, .complex => true
  | .list, .list => true
  | _, _ => false

/-- The exceptions. -/
inductive Err
  | type | value | index
deriving DecidableEq

/-- `checkCorType(someObj, someType, msg)` (`exceptions.py:55-58`). -/
def checkCorType (x : Py) (types : List Ty) : Except Err Py :=
  if types.any (isinstance x) then .ok x else .error .type

/-- The first argument of the decorator `raiseAttrType`: one class, a list of classes, or something else. -/
inductive Expected
  | one (t : Ty) | many (l : List Ty) | other

/-- Its second argument. -/
inductive AttrName
  | str (s : String) | index (z : ℤ) | other

/-- `args[z]` of a tuple. -/
def tupleGet (args : List Py) (z : ℤ) : Option Py :=
  if 0 ≤ z then args[z.toNat]? else if -z ≤ args.length then args[(args.length + z).toNat]? else Option.none

/-- `typeCheck` (`exceptions.py:23-41`): what happens instead of `f(obj, *args)`, or `ok` if it is called.  A message that cannot be made is a
TypeError as well: `'Index ' + attrName` (`:26`), and `for ety in expectedTypes` of a single class (`:35`). -/
def typeCheck (e : Expected) (a : AttrName) (args : List Py) : Except Err Unit :=
  match a with
  | .str _ => .error .type
  | .other => .error .type
  | .index z =>
    if z > args.length then .error .type
    else match tupleGet args z with
      | Option.none => .error .index
      | some v => match e with
        | .other => .error .type
        | .many l => if l.any (isinstance v) then .ok () else .error .type
        | .one t => if isinstance v t then .ok () else .error .type

/-- `x == 0.0`. -/
def isZero : Py → Bool
  | .bool b => !b
  | .int z => z = 0
  | .float q => q = 0
  | .complex a b => a = 0 && b = 0
  | .npInt z => z = 0
  | .npFloat q => q = 0
  | .npFloat32 q => q = 0
  | .npComplex a b => a = 0 && b = 0
  | _ => false

/-- The number a Python object stands for. -/
def number : Py → Option (ℚ × ℚ)
  | .bool b => some (if b then 1 else 0, 0)
  | .int z => some (z, 0)
  | .float q => some (q, 0)
  | .complex a b => some (a, b)
  | .npInt z => some (z, 0)
  | .npFloat q => some (q, 0)
  | .npFloat32 q => some (q, 0)
  | .npComplex a b => some (a, b)
  | _ => Option.none

/-- `x != y` for the values that get this far: numbers are compared as numbers. -/
def differs : Py → Py → Bool
  | .none, .none => false
  | x, y => match number x, number y with
    | some a, some b => a ≠ b
    | _, _ => true

/-- A term (`QTerms.py:28-72`) with its frequency, `_paramUpdated` and, for a coupling, the terms of its systems. -/
inductive Term
  | mk (freq : Py) (updated : Bool) (subs : List Term)

/-- Its frequency. -/
def Term.freq : Term → Py
  | .mk f _ _ => f

/-- `_paramUpdated`. -/
def Term.updated : Term → Bool
  | .mk _ u _ => u

/-- Its `subSys`. -/
def Term.subs : Term → List Term
  | .mk _ _ s => s

/-- `setAttr(self, '_QTerm__frequency', v)` (`QSimBase.py:39-47`). -/
def storeFreq (v old : Py) (u : Bool) : Py × Bool := if differs v old then (v, true) else (old, u)

mutual
/-- The setter `frequency` of a term (`QTerms.py:225-230`): the exception and what is left. -/
def setFreq (v : Py) : Term → Except Err Unit × Term
  | .mk f u subs => match checkCorType v [.int, .float, .complex, .noneType] with
    | .error e => (.error e, .mk f u subs)
    | .ok _ =>
      let (f', u') := storeFreq (if isZero v then .int 0 else v) f u
      match setFreqs v subs with
      | (r, subs) => (r, .mk f' u' subs)
/-- The loop over the terms of a coupling. -/
def setFreqs (v : Py) : List Term → Except Err Unit × List Term
  | [] => (.ok (), [])
  | t :: ts => match setFreq v t with
    | (.error e, t) => (.error e, t :: ts)
    | (.ok _, t) => match setFreqs v ts with
      | (r, ts) => (r, t :: ts)
end

/-- The check at the beginning of `totalHamiltonian` (`QTerms.py:237-238`). -/
def hamiltonianCheck (t : Term) : Except Err Py := checkCorType t.freq [.int, .float, .complex]

/-- `dim > 0` for the objects that pass the type check. -/
def positive : Py → Bool
  | .bool b => b
  | .int z => z > 0
  | .npInt z => z > 0
  | _ => false

/-- The first two checks of the setter `dimension` of a single system (`QSystem.py:253-254`). -/
def dimensionCheck (d : Py) : Except Err Py :=
  match checkCorType d [.int, .npInteger] with
  | .error e => .error e
  | .ok d => if positive d then .ok d else .error .value

/-- The two ways to say which attribute is swept: `key` (`baseClasses.py:72-75`) is checked, `sweepKey` (`QSweep.py:118-120`) is not. -/
inductive KeyCmd
  | key (v : Py) | sweepKey (v : Py)

/-- The setters: exception and new key. -/
def setKey (old : Py) : KeyCmd → Except Err Unit × Py
  | .key v => match typeCheck (.one .str) (.index 0) [v] with
    | .error e => (.error e, old)
    | .ok _ => (.ok (), v)
  | .sweepKey v => (.ok (), v)

/-- `aliasClass.name = v` (`base.py:112-118`): the first name stays, later ones give a warning. -/
def setName (old : Option String) (v : Py) : Except Err Unit × Option String :=
  match typeCheck (.one .str) (.index 0) [v] with
  | .error e => (.error e, old)
  | .ok _ => match old, v with
    | Option.none, .str s => (.ok (), some s)
    | old, _ => (.ok (), old)

/-- The list of a sweep (`QSweep.py:122-143`): the one that was assigned, or a range. -/
inductive Source
  | list (l : List Py)
  | range (a b h : Sweep.Num)

/-- The element type of `numpy.arange`: integers if all arguments are integers. -/
def elem (a b h : Sweep.Num) (q : ℚ) : Py :=
  match a, b, h with
  | .int _, .int _, .int _ => .npInt q.floor
  | _, _, _ => .npFloat q

/-- The values of the sweep; `none` if there is no list. -/
def Source.values : Source → Option (List Py)
  | .list l => some l
  | .range a b h => (Sweep.arange Sweep.double a.val (Sweep.double (b.val + h.val)) h.val).map (List.map (elem a b h))

/-- The points of a sweep over the frequency of a term, in order (`modularSweep.py:52-55`, `QSweep.py:146-187`): the terms with which the points are
computed, the exception, and the term at the end. -/
def sweepPoints (t : Term) : List Py → List Term × Except Err Unit × Term
  | [] => ([], .ok (), t)
  | v :: vs => match setFreq v t with
    | (.error e, t) => ([], .error e, t)
    | (.ok _, t) => match sweepPoints t vs with
      | (l, r, t') => (t :: l, r, t')

end Verif.Args
