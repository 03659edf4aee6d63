/-!
# Model of `simUnits.py`: the dictionary `settings` and the physical constants

Values of settings are from any type `V` with a truth value, constants from any type `C`.  Strings that are names of attributes of
`dict` (`"update"`, `"__class__"`, ...) are left out: assigning these changes the methods of the object.
-/
namespace Verif.Units

/-- The exceptions. -/
inductive Err
  | key
  | attribute
  | type
  deriving DecidableEq, Repr

/-- What can be used as a key: a string, or something hashable that is none. -/
inductive Key
  | str (s : String)
  | other (n : Nat)
  deriving DecidableEq, Repr

/-- The two objects: a dictionary with attributes each (`simUnits.py:17-25`, `:35-44`). -/
structure St (V C : Type) where
  items : Key → Option V
  attrs : String → Option V
  cItems : Key → Option C
  cAttrs : String → Option C

/-- Replace the value at one place. -/
def upd {K X : Type} [DecidableEq K] (f : K → Option X) (k : K) (x : Option X) : K → Option X := fun k' => if k' = k then x else f k'

/-- Statements of the user. -/
inductive Cmd (V C : Type)
  | setItem (k : Key) (v : V)
  | setAttr (k : String) (v : V)
  | update (l : List (Key × V))
  | delItem (k : Key)
  | delAttr (k : String)
  | constItem (k : Key) (c : C)
  | constAttr (k : String) (c : C)

variable {V C : Type}

/-- `_settings.__setitem__` (`simUnits.py:23-25`): the attribute first, then the item; `setattr` needs a string. -/
def setItem (st : St V C) (k : Key) (v : V) : Except Err (St V C) :=
  match k with
  | .str s => .ok { st with attrs := upd st.attrs s (some v), items := upd st.items (.str s) (some v) }
  | .other _ => .error .type

/-- `dict.update`, which does not call `__setitem__`. -/
def updateItems (f : Key → Option V) (l : List (Key × V)) : Key → Option V :=
  l.foldl (fun (g : Key → Option V) (p : Key × V) => upd g p.1 (some p.2)) f

/-- Execute a statement; one that raises changes nothing.  Assignments to `constants` are those of `dict` (`simUnits.py:35-44` does not
define any). -/
def step (st : St V C) : Cmd V C → Except Err (St V C)
  | .setItem k v => setItem st k v
  | .setAttr k v => .ok { st with attrs := upd st.attrs k (some v) }
  | .update l => .ok { st with items := updateItems st.items l }
  | .delItem k => match st.items k with
    | some _ => .ok { st with items := upd st.items k none }
    | none => .error .key
  | .delAttr k => match st.attrs k with
    | some _ => .ok { st with attrs := upd st.attrs k none }
    | none => .error .attribute
  | .constItem k c => .ok { st with cItems := upd st.cItems k (some c) }
  | .constAttr k c => .ok { st with cAttrs := upd st.cAttrs k (some c) }

/-- The state when the module has been loaded (`simUnits.py:18-21`, `:28-32`, `:47`; `__init__` calls `__setitem__` for each item); `no` is
`False`. -/
def start (no : V) : St V C :=
  ⟨upd (fun _ => none) (.str "trueVals") (some no), upd (fun _ => none) "trueVals" (some no), fun _ => none, fun _ => none⟩

/-- Execute statements, going on after exceptions. -/
def run (no : V) (l : List (Cmd V C)) : St V C :=
  l.foldl (fun (st : St V C) (c : Cmd V C) => match step st c with
    | .ok st' => st'
    | .error _ => st) (start no)

/-- `settings[k]`. -/
def item (st : St V C) (k : Key) : Except Err V := match st.items k with
  | some v => .ok v
  | none => .error .key

/-- `settings.k`. -/
def attr (st : St V C) (k : String) : Except Err V := match st.attrs k with
  | some v => .ok v
  | none => .error .attribute

/-- `constants[k]` (`simUnits.py:36-41`); the two tables (`:8-14`) have the key `"hbar"` only, `si` and `one` are its values. -/
def const (truthy : V → Bool) (si one : C) (st : St V C) (k : Key) : Except Err C :=
  match attr st "trueVals" with
  | .error e => .error e
  | .ok v => if k = .str "hbar" then .ok (if truthy v then si else one) else .error .key

/-- `constants.k` (`simUnits.py:43-44`): `__getattr__` is called if the object has no such attribute. -/
def constAttr (truthy : V → Bool) (si one : C) (st : St V C) (k : String) : Except Err C :=
  match st.cAttrs k with
  | some c => .ok c
  | none => const truthy si one st (.str k)

/-- `constants.get(k)`, `none` for `None`: the method of `dict` does not call `__getitem__`. -/
def constGet (st : St V C) (k : Key) : Option C := st.cItems k

/-- `hasattr(constants, k)`: `False` for an `AttributeError`, other exceptions go on. -/
def hasConst (truthy : V → Bool) (si one : C) (st : St V C) (k : String) : Except Err Bool :=
  match constAttr truthy si one st k with
  | .ok _ => .ok true
  | .error .attribute => .ok false
  | .error e => .error e

end Verif.Units
