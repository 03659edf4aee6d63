import Verif.Obj.Classes

/-!
Attribute access on objects with an internal simulation (`QSimComp.py:26-170`, `base.py:492-505`).
-/

namespace Verif.Obj

/-- Exceptions: only `AttributeError` is treated specially by the code. -/
inductive Err
  | attribute
  | other (msg : String)
  deriving DecidableEq, Repr

/-- The two objects that are involved: the object itself and its simulation. -/
inductive Side
  | own
  | sim
  deriving DecidableEq, Repr

/-- What the getters and setters do: given the object, the class that defines the attribute and the attribute name.
The state `S` comprises the object, its simulation and everything they refer to; a setter that raises may already have
changed it.  For slots, `get` and `set` are the accesses of the slot. -/
structure Bodies (S V : Type) where
  get : Side → String → String → S → Except Err V × S
  set : Side → String → String → V → S → Except Err Unit × S

variable {S V : Type}

/-- `object.__getattribute__` on an object of class `c`: the entry found in the class is read; no class has a
`__dict__` (all classes define `__slots__`), so there is nothing else to look at. -/
def plainGet (B : Bodies S V) (side : Side) (c k : String) (s : S) : Except Err V × S :=
  match lookup c k with
  | none => (.error .attribute, s)
  | some (d, _) => B.get side d k s

/-- `object.__setattr__` on an object of class `c`: slots and properties with a setter can be assigned to; everything
else is an `AttributeError` (no `__dict__`, see `plainGet`). -/
def plainSet (B : Bodies S V) (side : Side) (c k : String) (v : V) (s : S) : Except Err Unit × S :=
  match lookup c k with
  | some (d, .slot) => B.set side d k v s
  | some (d, .rw) => B.set side d k v s
  | _ => (.error .attribute, s)

/-- `getattr(obj.simulation, k)`: `Simulation` has no custom attribute access (`QSim.py:36`). -/
def simGet (B : Bodies S V) (k : String) (s : S) : Except Err V × S := plainGet B .sim "Simulation" k s

/-- `setattr(obj.simulation, k, v)`. -/
def simSet (B : Bodies S V) (k : String) (v : V) (s : S) : Except Err Unit × S := plainSet B .sim "Simulation" k v s

/-- `QSimComp.__getattribute__` (`QSimComp.py:58-69`).  The object is constructed, so `self.simulation` is there; before
`__init__` has set it the code recurses for ever, which is not modelled. -/
def getA (B : Bodies S V) (c k : String) (s : S) : Except Err V × S :=
  match plainGet B .own c k s with
  | (.error .attribute, s1) =>
    match simGet B k s1 with
    | (.error .attribute, s2) => (.error .attribute, s2)
    | r => r
  | r => r

/-- `QSimComp.__setattr__` (`QSimComp.py:71-82`). -/
def setA (B : Bodies S V) (c k : String) (v : V) (s : S) : Except Err Unit × S :=
  match plainSet B .own c k v s with
  | (.error .attribute, s1) =>
    match simSet B k v s1 with
    | (.error .attribute, s2) => (.error .attribute, s2)
    | r => r
  | r => r

/-- `named.__setKwargs` (`base.py:492-505`): the keywords are assigned one after the other; the first exception ends
the loop. -/
def setKwargs (B : Bodies S V) (c : String) : List (String × V) → S → Except Err Unit × S
  | [], s => (.ok (), s)
  | (k, v) :: r, s =>
    match setA B c k v s with
    | (.ok _, s1) => setKwargs B c r s1
    | (.error e, s1) => (.error e, s1)

/-- The classes derived from `QSimComp`. -/
def simComps : List String :=
  (classes.map (·.name)).filter fun c => (mro classes c).any fun d => d.name == "QSimComp"

/-! ### A protocol, its simulation and its steps -/

/-- The values that matter below: `None`, a number, an object given by its number, a list of objects, the tuple
returned by `simParameters`. -/
inductive Val
  | none
  | num (n : Int)
  | obj (i : Nat)
  | objs (l : List Nat)
  | params (total step : Int)
  deriving DecidableEq, Repr

/-- A protocol (object `0`) and its simulation (object `1`): the `superSys` of both, their `subSys` (as lists of objects),
and two of the time parameters of the simulation. -/
structure Proto where
  superSys : Val
  simSuper : Val
  steps : List Nat
  simSub : List Nat
  total : Int
  step : Int
  deriving DecidableEq, Repr

/-- The getters and setters of the attributes above for a `qProtocol`.
* `superSys` of the protocol (`QPro.py:187-193`): `__superSys` is assigned first, then the `_paramBound` of the new value
  is accessed, which is an `AttributeError` unless it is an object (the other effects do not matter here).  For the
  simulation it is the plain setter of `base.py:638-639`.
* `subSys` of the protocol (`base.py:653-656` with `QPro.py:298-317`): the dictionary is cleared, and then `addStep` is
  called with the value as its only argument; a list has no `__inProtocol`.  For the simulation (`base.py:653-656` with
  `QSim.py:291-298, 175-220`) the dictionary is cleared and the given objects are added.
* `totalTime`, `stepSize` (`QSimBase.py`), reduced to the assignment of a parameter that is not bound; `simParameters`
  and its differently named setters (`QSimComp.py:101-154`).
* `initialStateSystem` of the simulation (`QSimBase.py:182-188`): with a `superSys` that is not a system it is that
  `superSys`'s `superSys`.
-/
def protoBodies : Bodies Proto Val where
  get := fun side _ k s =>
    match side, k with
    | .own, "superSys" => (.ok s.superSys, s)
    | .own, "subSys" => (.ok (.objs s.steps), s)
    | .own, "simTotalTime" => (.ok (.params s.total s.step), s)
    | .own, "simStepSize" => (.ok (.params s.total s.step), s)
    | .own, "simParameters" => (.ok (.params s.total s.step), s)
    | .sim, "superSys" => (.ok s.simSuper, s)
    | .sim, "subSys" => (.ok (.objs s.simSub), s)
    | .sim, "totalTime" => (.ok (.num s.total), s)
    | .sim, "stepSize" => (.ok (.num s.step), s)
    | .sim, "initialStateSystem" =>
      match s.simSuper with
      | .obj 0 => (match s.superSys with
        | .obj i => (.ok (.obj i), s)
        | _ => (.error (.other "Simulation initialStateSystem/superSys is needed"), s))
      | .obj i => (.ok (.obj i), s)
      | _ => (.error .attribute, s)
    | _, _ => (.error (.other "not modelled"), s)
  set := fun side _ k v s =>
    match side, k with
    | .own, "superSys" =>
      match v with
      | .obj i => (.ok (), { s with superSys := .obj i })
      | v => (.error .attribute, { s with superSys := v })
    | .own, "subSys" =>
      match v with
      | .obj i => (.ok (), { s with steps := [i] })
      | _ => (.error .attribute, { s with steps := [] })
    | .own, "simTotalTime" =>
      match v with
      | .num n => (.ok (), { s with total := n })
      | _ => (.error (.other "TypeError"), s)
    | .own, "simStepSize" =>
      match v with
      | .num n => (.ok (), { s with step := n })
      | _ => (.error (.other "TypeError"), s)
    | .sim, "superSys" => (.ok (), { s with simSuper := v })
    | .sim, "subSys" =>
      match v with
      | .obj i => (.ok (), { s with simSub := [i] })
      | .objs l => (.ok (), { s with simSub := l })
      | _ => (.error (.other "TypeError"), { s with simSub := [] })
    | .sim, "totalTime" =>
      match v with
      | .num n => (.ok (), { s with total := n })
      | _ => (.error (.other "TypeError"), s)
    | .sim, "stepSize" =>
      match v with
      | .num n => (.ok (), { s with step := n })
      | _ => (.error (.other "TypeError"), s)
    | _, _ => (.error (.other "not modelled"), s)

end Verif.Obj
