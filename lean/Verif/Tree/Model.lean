/-!
# Composite quantum systems: positions and dimensions

Model of the part of `classes/QSystem.py` that keeps, for every system of a (nested) composite, its own dimension and the
total dimension of everything before and after it.  An object is a node of a tree; a reference to an object is the path
(list of indices into `subSys`) that leads to it from the outermost composite.

Simplifications, common to the whole file:
* a system is contained in at most one composite and contains no system twice (the tree shape); shared sub-systems are
  treated in `Verif.Tree.Heap`;
* `int((a * b) / c)` is the quotient of natural numbers; the code goes through a float, exact up to `2 ^ 53` (see
  `Verif.Tree.FloatDims`); a division by zero, an exception in the code, gives zero (no reachable consistent structure contains a zero);
* terms, matrices and the `_paramUpdated` flags are not part of this state (`Verif.Flags` models the flags), so the check
  of Pauli operators in the dimension setter is in `Verif.Tree.Pauli`.
-/
namespace Verif.Tree

/-- A `QuantumSystem` object: `__compSys`, `__dimension`, `__dimsBefore`, `__dimsAfter`, and the values of `subSys`
(`QSystem.py:75-100`). -/
inductive Sys where
  | node (kind : Option Bool) (dim before after : Nat) (subs : List Sys) : Sys
deriving Repr

namespace Sys

/-- `__compSys`. -/
def kind : Sys → Option Bool
  | node k _ _ _ _ => k

/-- `_dimsBefore` (`QSystem.py:316-322`). -/
def before : Sys → Nat
  | node _ _ b _ _ => b

/-- `_dimsAfter` (`QSystem.py:328-334`). -/
def after : Sys → Nat
  | node _ _ _ a _ => a

/-- The values of the `subSys` dictionary, in insertion order. -/
def subs : Sys → List Sys
  | node _ _ _ _ s => s

mutual
/-- The `dimension` getter (`QSystem.py:227-239`): the product over the sub-systems for a composite, else the stored value.
Writing the product back into `__dimension` of the composite is not observable and left out. -/
def dimension : Sys → Nat
  | node k d _ _ s => if k = some true then dimProd s else d
/-- The loop of the getter. -/
def dimProd : List Sys → Nat
  | [] => 1
  | s :: r => dimension s * dimProd r
end

mutual
/-- The `_dimsBefore` setter (`QSystem.py:298-314, 324-326`): store the value and rescale all sub-systems. -/
def setBefore (v : Nat) : Sys → Sys
  | node k d b a s => node k d v a (scaleBefore v b s)
/-- The loop over `subSys` of `__dimsABUpdate('_dimsBefore', v)`. -/
def scaleBefore (v old : Nat) : List Sys → List Sys
  | [] => []
  | s :: r => setBefore (s.before * v / old) s :: scaleBefore v old r
end

mutual
/-- The `_dimsAfter` setter (`QSystem.py:298-314, 336-338`). -/
def setAfter (v : Nat) : Sys → Sys
  | node k d b a s => node k d b v (scaleAfter v a s)
/-- The loop over `subSys` of `__dimsABUpdate('_dimsAfter', v)`. -/
def scaleAfter (v old : Nat) : List Sys → List Sys
  | [] => []
  | s :: r => setAfter (s.after * v / old) s :: scaleAfter v old r
end

/-- `__addSub` (`QSystem.py:372-380`): every present sub-system gets the new one behind it, and the new one gets every
present one in front of it.  Returns the updated present ones and the updated new one. -/
def addLoop : List Sys → Sys → List Sys × Sys
  | [], c => ([], c)
  | s :: r, c =>
    let s' := setAfter (s.after * c.dimension) s
    let rest := addLoop r (setBefore (c.before * s.dimension) c)
    (s' :: rest.1, rest.2)

/-- `addSubSys` (`QSystem.py:382-409`) for one new sub-system that is not yet contained; `none` is the `TypeError` of
adding to a single system.  The circularity test cannot fail for two different trees. -/
def addSub (p c : Sys) : Option Sys :=
  match p with
  | node (some false) _ _ _ _ => none
  | node _ d b a s => some (node (some true) d b a ((addLoop s c).1 ++ [(addLoop s c).2]))

/-- `_updateDimension` (`QSystem.py:273-296`) for one composite: the sub-systems in front of position `i` rescale what is
after them, those behind it what is before them. -/
def updateDim (i new old : Nat) (s : List Sys) : List Sys :=
  s.mapIdx fun j q =>
    if j < i then setAfter (q.after * new / old) q
    else if i < j then setBefore (q.before * new / old) q
    else q

/-- The `dimension` setter (`QSystem.py:247-263`) of the system at the given path, followed by the `_updateDimension` calls
on all composites containing it, innermost first.  `none`: no such system, or the `ValueError` for a dimension that is not
positive.  The second component is the old dimension if it was changed, `none` for a composite (only a warning).
Simplification: when the value stays the same the code may or may not call `_updateDimension`, which then changes nothing. -/
def setDim (d : Nat) : List Nat → Sys → Option (Sys × Option Nat)
  | [], node k d₀ b a s =>
    let k' := match k with | none => some (!s.isEmpty) | some v => some v
    if k' = some true then some (node k' d₀ b a s, none)
    else if d = 0 then none
    else some (node k' d b a s, some d₀)
  | i :: p, node k d₀ b a s =>
    match s[i]? with
    | none => none
    | some q =>
      match setDim d p q with
      | none => none
      | some (q', none) => some (node k d₀ b a (s.set i q'), none)
      | some (q', some old) => some (node k d₀ b a (updateDim i d old (s.set i q')), some old)

/-- The system a path leads to. -/
def sysAt : Sys → List Nat → Option Sys
  | s, [] => some s
  | node _ _ _ _ s, i :: p => match s[i]? with | none => none | some q => sysAt q p

/-- Apply a partial function to the system a path leads to. -/
def modifyAt (f : Sys → Option Sys) : List Nat → Sys → Option Sys
  | [], s => f s
  | i :: p, node k d b a s =>
    match s[i]? with
    | none => none
    | some q => match modifyAt f p q with | none => none | some q' => some (node k d b a (s.set i q'))

/-- Take the entry at the end of the path out of the `subSys` dictionary containing it (`base.py:677-686`). -/
def pop : List Nat → Sys → Option Sys
  | [], _ => none
  | [i], node k d b a s => if i < s.length then some (node k d b a (s.eraseIdx i)) else none
  | i :: j :: p, node k d b a s =>
    match s[i]? with
    | none => none
    | some q => match pop (j :: p) q with | none => none | some q' => some (node k d b a (s.set i q'))

/-- `addSubSys` of a list (`addDecorator`, `base.py:524-543`): one after the other. -/
def addAll (p : Sys) : List Sys → Option Sys
  | [] => some p
  | c :: r => match addSub p c with | none => none | some p' => addAll p' r

/-- The three lines after the removal proper (`QSystem.py:496-498`): stand-alone, so nothing before and after. -/
def detach (s : Sys) : Sys := setBefore 1 (setAfter 1 s)

mutual
/-- `_removeSubSysExc` (`QSystem.py:450-518`) for the system at path `p`, found by the search through the nested structure;
the last argument is the system being removed as it was when the removal started.  Returns the remaining structure and the
removed system.  A composite first loses its own sub-systems, one by one, and gets them back in the end; a single system
first gets the dimension one.  Line 495, meant to restore that dimension, writes to the composite instead, where the value is
never used.  Terms are not part of this state. -/
def remove (root : Sys) (p : List Nat) : Sys → Option (Sys × Sys)
  | node k _ _ _ s =>
    if k = some true then
      match removeSubs root p s with
      | none => none
      | some (root₁, cs) =>
        match sysAt root₁ p, pop p root₁ with
        | some t, some root₂ => match addAll t cs with | none => none | some t' => some (root₂, detach t')
        | _, _ => none
    else
      match setDim 1 p root with
      | none => none
      | some (root₁, _) =>
        match sysAt root₁ p, pop p root₁ with
        | some t, some root₂ => some (root₂, detach t)
        | _, _ => none
/-- The loop over `qsysList` (`QSystem.py:485-487`): the first of the remaining sub-systems is always at position 0. -/
def removeSubs (root : Sys) (p : List Nat) : List Sys → Option (Sys × List Sys)
  | [] => some (root, [])
  | c :: r =>
    match remove root (p ++ [0]) c with
    | none => none
    | some (root₁, c') =>
      match removeSubs root₁ p r with
      | none => none
      | some (root₂, cs) => some (root₂, c' :: cs)
end

/-- `removeSubSys` of the system at a non-empty path (`base.py:687-693`, `QSystem.py:442-448`). -/
def removeAt (root : Sys) (p : List Nat) : Option (Sys × Sys) :=
  match p, sysAt root p with
  | [], _ => none
  | _, none => none
  | _ :: _, some t => remove root p t

/-- `QuantumSystem()` before anything is known about it. -/
def blank : Sys := node none 1 1 1 []

/-- A single system of dimension `d` that is in no composite. -/
def single (d : Nat) : Sys := node (some false) d 1 1 []

end Sys

/-- What a user can do with quantum systems, seen from the outermost systems (numbered in order of appearance). -/
inductive Op where
  /-- `QuantumSystem()` -/
  | new
  /-- a single system with this dimension -/
  | newSingle (d : Nat)
  /-- outermost system `i`.addSubSys(outermost system `j`) -/
  | add (i j : Nat)
  /-- set the dimension of the system at this path of outermost system `i` -/
  | dim (i : Nat) (p : List Nat) (d : Nat)
  /-- remove the system at this path from outermost system `i`, and forget it -/
  | removeForget (i : Nat) (p : List Nat)
  /-- remove the single system at this path from outermost system `i`; it is then an outermost system itself -/
  | removeSingle (i : Nat) (p : List Nat)
deriving Repr, DecidableEq

/-- One user action on the list of outermost systems; `none` when the code raises or the action makes no sense. -/
def step (w : List Sys) : Op → Option (List Sys)
  | .new => some (w ++ [Sys.blank])
  | .newSingle d => if d = 0 then none else some (w ++ [Sys.single d])
  | .add i j =>
    if i = j then none else
    match w[i]?, w[j]? with
    | some p, some c => match Sys.addSub p c with | none => none | some p' => some ((w.set i p').eraseIdx j)
    | _, _ => none
  | .dim i p d =>
    match w[i]? with
    | none => none
    | some t => match Sys.setDim d p t with | none => none | some (t', _) => some (w.set i t')
  | .removeForget i p =>
    match w[i]? with
    | none => none
    | some t => match Sys.removeAt t p with | none => none | some (t', _) => some (w.set i t')
  | .removeSingle i p =>
    match w[i]? with
    | none => none
    | some t =>
      match Sys.sysAt t p with
      | none => none
      | some q =>
        if q.kind = some true then none else
        match Sys.removeAt t p with | none => none | some (t', r) => some (w.set i t' ++ [r])

/-- A history of user actions. -/
def run : List Sys → List Op → Option (List Sys)
  | w, [] => some w
  | w, o :: r => match step w o with | none => none | some w' => run w' r

end Verif.Tree
