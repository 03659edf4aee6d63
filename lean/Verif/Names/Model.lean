/-!
# Model of names, aliases, the alias dictionary and the registry of instances (`classes/base.py`)

Aliases are strings (the code accepts any object).  Garbage collection of registered objects is not modelled.
-/
namespace Verif.Names

/-- An `aliasClass` object (`base.py:74-189`): name (`None` until set) and list of aliases. -/
structure AliasObj where
  name : Option String
  alias : List String
  deriving DecidableEq, Repr

/-- The setter of `aliasClass.name` (`base.py:112-118`): only the first name is taken. -/
def AliasObj.setName (a : AliasObj) (s : String) : AliasObj :=
  match a.name with
  | none => { a with name := some s }
  | some _ => a

/-- The setter of `aliasClass.alias` for one string (`base.py:130-133`). -/
def AliasObj.addAlias (a : AliasObj) (s : String) : AliasObj := { a with alias := a.alias ++ [s] }

/-- `__members` (`base.py:135-139`). -/
def AliasObj.members (a : AliasObj) : List (Option String) := a.name :: a.alias.map some

/-- A dictionary key: a string, or an `aliasClass` object given by its identity. -/
inductive Key
  | str (s : String)
  | ali (o : Nat)
  deriving DecidableEq, Repr

/-- The current contents of all `aliasClass` objects. -/
abbrev Env := Nat → AliasObj

/-- `==` on keys (`aliasClass.__eq__`, `base.py:169-183`; `str == aliasClass` falls back to the same method). -/
def keyEq (σ : Env) : Key → Key → Bool
  | .ali a, .ali b => (σ b).members.any fun it => decide (it ∈ (σ a).members)
  | .ali a, .str s => (σ a).members.any fun it => it == some s
  | .str s, .ali a => (σ a).members.any fun it => it == some s
  | .str s, .str t => s == t

/-- What `hash` depends on (`aliasClass.__hash__`, `base.py:185-189`).  Simplification: different strings have different hash
values, so a hash table lookup succeeds exactly on keys with the same `hashOf`. -/
def hashOf (σ : Env) : Key → Option String
  | .str s => some s
  | .ali a => (σ a).name

/-- The contents of an `aliasDict` in insertion order. -/
abbrev ADict (V : Type) := List (Key × V)

variable {V : Type}

/-- `k in obj.keys()`: the hash table lookup of the built-in dictionary (it does not use `aliasDict.__contains__`). -/
def rawHas (σ : Env) (d : ADict V) (k : Key) : Bool := d.any fun e => hashOf σ e.1 == hashOf σ k

/-- `keySearch` (`base.py:191-217`). -/
def keySearch (σ : Env) (d : ADict V) (k : Key) : Key :=
  if rawHas σ d k then k
  else match d.find? fun e => keyEq σ k e.1 with
    | some e => e.1
    | none => k

/-- `dict.__getitem__`; `none` is `KeyError`. -/
def rawGet (σ : Env) (d : ADict V) (k : Key) : Option V :=
  (d.find? fun e => hashOf σ e.1 == hashOf σ k).map Prod.snd

/-- `dict.__setitem__`: an existing entry keeps its key and its position. -/
def rawSet (σ : Env) (d : ADict V) (k : Key) (v : V) : ADict V :=
  match d with
  | [] => [(k, v)]
  | e :: rest => if hashOf σ e.1 == hashOf σ k then (e.1, v) :: rest else e :: rawSet σ rest k v

/-- `dict.__delitem__`; `none` is `KeyError`. -/
def rawDel (σ : Env) (d : ADict V) (k : Key) : Option (ADict V) :=
  match d with
  | [] => none
  | e :: rest => if hashOf σ e.1 == hashOf σ k then some rest else (rawDel σ rest k).map (e :: ·)

/-- `aliasDict.__getitem__` (`base.py:228-235`); also `get` without default (`:236-243`). -/
def aget (σ : Env) (d : ADict V) (k : Key) : Option V := rawGet σ d (keySearch σ d k)

/-- `aliasDict.get` with a default (`base.py:236-243`). -/
def agetD (σ : Env) (d : ADict V) (k : Key) (dflt : V) : V := (aget σ d k).getD dflt

/-- `aliasDict.__setitem__` (`base.py:245-253`). -/
def aset (σ : Env) (d : ADict V) (k : Key) (v : V) : ADict V := rawSet σ d (keySearch σ d k) v

/-- `aliasDict.__delitem__` (`base.py:255-261`). -/
def adel (σ : Env) (d : ADict V) (k : Key) : Option (ADict V) := rawDel σ d (keySearch σ d k)

/-- `aliasDict.__contains__` (`base.py:263-268`). -/
def ahas (σ : Env) (d : ADict V) (k : Key) : Bool := rawHas σ d (keySearch σ d k)

/-- `aliasDict.update` (`base.py:270-281`) with the items of the mapping. -/
def aupdate (σ : Env) (d : ADict V) (items : List (Key × V)) : ADict V :=
  items.foldl (fun (acc : ADict V) (p : Key × V) => aset σ acc p.1 p.2) d

/-- `aliasDict.setdefault` (`base.py:283-289`): the returned value (`none`: KeyError) and the dictionary. -/
def asetdefault (σ : Env) (d : ADict V) (k : Key) (v : V) : Option V × ADict V :=
  let d' := if ahas σ d k then d else aset σ d k v
  (aget σ d' k, d')

/-- `aliasDict.pop` (`base.py:291-296`) without default; `none` is `KeyError`. -/
def apop (σ : Env) (d : ADict V) (k : Key) : Option (V × ADict V) :=
  let k' := keySearch σ d k
  match rawGet σ d k', rawDel σ d k' with
  | some v, some d' => some (v, d')
  | _, _ => none

/-! ## Classes, counters and default names -/

/-- A class derived from `named`: its label, its base class and whether its body defines its own instance counters. -/
structure Cls where
  label : String
  parent : Option Nat
  own : Bool
  deriving DecidableEq, Repr

/-- The class attributes `_externalInstances` and `_internalInstances` present in the class dictionary itself.
`_instances` and `_totalNumberOfInst` are not used for names and left out. -/
structure Counters where
  ext : Nat → Option Nat
  int : Nat → Option Nat

/-- Python attribute lookup on a class: its own attribute or the one of the base class (single inheritance). -/
def lookupAttr (T : List Cls) (f : Nat → Option Nat) : Nat → Nat → Nat
  | 0, _ => 0
  | fuel + 1, c => match f c with
    | some n => n
    | none => match (T[c]?).bind Cls.parent with
      | some p => lookupAttr T f fuel p
      | none => 0

/-- The value of a counter seen from class `c`. -/
def counter (T : List Cls) (f : Nat → Option Nat) (c : Nat) : Nat := lookupAttr T f (T.length + 1) c

/-- The counters when the modules have been loaded. -/
def initCounters (T : List Cls) : Counters :=
  let f (c : Nat) : Option Nat := if (T[c]?).any Cls.own then some 0 else none
  ⟨f, f⟩

/-- `_resetAll`/`_resetAllSubProc` (`base.py:474-489`): zeroes the counters of every class. -/
def resetCounters : Counters := ⟨fun _ => some 0, fun _ => some 0⟩

/-- `_incrementInstances` (`base.py:400-409`): `self.__class__._x += 1` reads through inheritance and writes to the class. -/
def increment (T : List Cls) (k : Counters) (c : Nat) (internal : Bool) : Counters :=
  if internal then { k with int := fun x => if x = c then some (counter T k.int c + 1) else k.int x }
  else { k with ext := fun x => if x = c then some (counter T k.ext c + 1) else k.ext x }

/-- The string built by `__namer` (`base.py:411-421`). -/
def defaultName (label : String) (internal : Bool) (n : Nat) : String :=
  (if internal then "_" else "") ++ label ++ Nat.repr n

/-- `clsLabel()`. -/
def labelOf (T : List Cls) (c : Nat) : String := ((T[c]?).map Cls.label).getD ""

/-- `__namer` after the increment. -/
def namer (T : List Cls) (k : Counters) (c : Nat) (internal : Bool) : String :=
  defaultName (labelOf T c) internal (if internal then counter T k.int c else counter T k.ext c)

/-- The names of a sequence of creations. -/
def createNames (T : List Cls) : Counters → List (Nat × Bool) → List String
  | _, [] => []
  | k, (c, i) :: rest =>
    let k' := increment T k c i
    namer T k' c i :: createNames T k' rest

/-! ## The registry and a sub-system dictionary -/

/-- The state: objects (identity = position), class counters, the registry `named._allInstacesDict` and the `subSys`
dictionary of one further object. -/
structure World where
  objs : List AliasObj
  counters : Counters
  registry : ADict Nat
  subSys : ADict Nat

/-- The environment of a list of objects. -/
def envOf (l : List AliasObj) : Env := fun o => (l[o]?).getD ⟨none, []⟩

/-- `named.__init__` (`base.py:370-380`) without keyword arguments (`qBase.__init__` sets them afterwards, `:600-609`). -/
def create (T : List Cls) (w : World) (c : Nat) (internal : Bool) : World :=
  let k := increment T w.counters c internal
  let objs := w.objs ++ [⟨some (namer T k c internal), []⟩]
  { w with counters := k, objs := objs, registry := aset (envOf objs) w.registry (.ali w.objs.length) w.objs.length }

/-- The setter of `named.alias` for one string (`base.py:440-447`); `none`: `ValueError`, nothing is changed. -/
def setAlias (w : World) (o : Nat) (s : String) : Option World :=
  if w.registry.any fun e => keyEq (envOf w.objs) e.1 (.str s) && e.2 != o then none
  else some { w with objs := w.objs.modify o (AliasObj.addAlias · s) }

/-- `getByNameOrAlias` (`base.py:388-398`); `none`: `ValueError`. -/
def getByNameOrAlias (w : World) (k : Key) : Option Nat := aget (envOf w.objs) w.registry k

/-- `qBase.addSubSys` of an object (`base.py:658-668`). -/
def addSubSys (w : World) (o : Nat) : World := { w with subSys := aset (envOf w.objs) w.subSys (.ali o) o }

/-- `qBase._removeSubSysExc` (`base.py:676-684`); `none`: an exception, nothing is changed. -/
def removeSubSys (w : World) (k : Key) : Option World :=
  (getByNameOrAlias w k).bind fun o => (apop (envOf w.objs) w.subSys (.ali o)).map fun r => { w with subSys := r.2 }

/-- One statement of the user: creating an object, giving an alias, `addSubSys` with an object or with a name/alias
(`addDecorator`, `base.py:562-575`) and `removeSubSys`. -/
inductive Op
  | create (c : Nat) (internal : Bool)
  | giveAlias (o : Nat) (s : String)
  | add (o : Nat)
  | addKey (k : Key)
  | remove (k : Key)
  deriving DecidableEq, Repr

/-- Execute a statement; a refused one changes nothing.  `giveAlias`/`add` are statements about an existing object. -/
def stepW (T : List Cls) (w : World) : Op → World
  | .create c i => create T w c i
  | .giveAlias o s => if o < w.objs.length then (setAlias w o s).getD w else w
  | .add o => if o < w.objs.length then addSubSys w o else w
  | .addKey k => ((getByNameOrAlias w k).map (addSubSys w)).getD w
  | .remove k => (removeSubSys w k).getD w

/-- The state before any object exists. -/
def emptyWorld (T : List Cls) : World := ⟨[], initCounters T, [], []⟩

/-- Execute a program. -/
def runW (T : List Cls) (ops : List Op) : World := ops.foldl (fun (w : World) (op : Op) => stepW T w op) (emptyWorld T)

/-! ## List arguments -/

/-- An argument of a decorated method: a single object or a (nested) list/tuple. -/
inductive Arg (α : Type)
  | one (a : α)
  | list (l : List (Arg α))

mutual
/-- `_recurseIfList` (`base.py:53-72`).  `func` changes a state and returns a value, or raises (`none`) after possibly having
changed the state; the value of the decorated call is the last `r`, `some none` standing for Python's `None`. -/
def recurse {α S R : Type} (func : α → S → Option R × S) : Arg α → S → Option (Option R) × S
  | .one a, s => ((func a s).1.map some, (func a s).2)
  | .list l, s => recurseList func l none s
/-- The `for` loop over the elements; `r` is the value of the variable `r`. -/
def recurseList {α S R : Type} (func : α → S → Option R × S) : List (Arg α) → Option R → S → Option (Option R) × S
  | [], r, s => (some r, s)
  | x :: rest, _, s => match recurse func x s with
    | (none, s') => (none, s')
    | (some r', s') => recurseList func rest r' s'
end

end Verif.Names
