import Verif.NMat.Props
import Verif.Toolbox.SuperPos

/-!
# Model of the initial states of (composite) quantum systems

`QSystem.py:38-57, 152-191`, `QSimBase.py:197-262`.  Simplifications: the inputs are integers, lists, dictionaries with integer keys,
arrays and `None`; a dictionary given to a composite through its simulation object (where it would be indexed by the position) and a
stored array reached through an explicit `None` (where its rows would be used) count as errors; `_maxInput` is computed from the input
that is being used; an exception ends the run, so the partial effects of a failing assignment are not followed; the initial state of
the simulation of the system is not bound to another simulation (that is `Verif.Bound.State`).
-/
namespace Verif.Init
open NMat

/-- An initial-state input. -/
inductive Inp where
  | none
  | int (n : ℤ)
  | list (l : List Inp)
  | dict (items : List (ℤ × ℂ))
  | arr (A : Mat)

/-- A quantum system: kind (`_QuantumSystem__compSys`), stored dimension, `_inpCoef`, stored input (`_stateBase__initialStateInput`),
stored state (`_stateBase__initialState`) and sub-systems. -/
inductive St where
  | node (comp : Option Bool) (dim : ℕ) (coef : Bool) (input : Inp) (cache : Option Mat) (subs : List St)

namespace St
/-- The stored input. -/
def input : St → Inp | node _ _ _ i _ _ => i
/-- The stored state. -/
def cache : St → Option Mat | node _ _ _ _ c _ => c
/-- The sub-systems. -/
def subs : St → List St | node _ _ _ _ _ s => s
/-- Replace the stored state. -/
def setCache : St → Option Mat → St | node k d f i _ s, c => node k d f i c s

mutual
/-- `dimension` (`QSystem.py:229-241`). -/
def dimension : St → ℕ
  | node (some true) _ _ _ _ s => dimProd s
  | node _ d _ _ _ _ => d
/-- The product of the dimensions of the sub-systems. -/
def dimProd : List St → ℕ
  | [] => 1
  | t :: r => dimension t * dimProd r
end
end St
open St

/-- All items are integers. -/
def ints : List Inp → Option (List ℤ)
  | [] => some []
  | .int n :: r => match ints r with | none => none | some l => some (n :: l)
  | _ :: _ => none

/-- `max` of a list; `none` for the empty list (`ValueError`). -/
def pyMax : List ℤ → Option ℤ
  | [] => none
  | n :: r => some (r.foldl max n)

/-- `_setGetMaxInput` (`QSimBase.py:242-262`). -/
def maxInput : Inp → Option ℤ
  | .none => some 1
  | .int n => some n
  | .list l => match ints l with | none => some 1 | some ns => pyMax ns
  | .dict items => pyMax (items.map Prod.fst)
  | .arr A => some A.rows

/-- The input as the `excitations` argument of `superPos`. -/
def toExc : Inp → Toolbox.Exc
  | .int n => .int n
  | .list l => match ints l with | none => .other | some ns => .list ns
  | .dict items => .dict items
  | _ => .other

/-- A ket as a matrix with run-time shape. -/
def ofKet {d : ℕ} (k : Toolbox.Ket d) : Mat := ⟨d, 1, fun i _ => if h : i < d then k ⟨i, h⟩ 0 else 0⟩

/-- The inputs handed to the sub-systems of a composite (`QSystem.py:159-160`). -/
def inputsFor (s : List St) : Inp → Option (List Inp)
  | .none => some (s.map St.input)
  | .list l => if s.length ≤ l.length then some l else none
  | _ => none

/-- All states, unless one of them is `None`. -/
def allSome : List (Option Mat) → Option (List Mat)
  | [] => some []
  | none :: _ => none
  | some A :: r => match allSome r with | none => none | some l => some (A :: l)

/-- The array, when the input is one. -/
def Inp.asArr : Inp → Option Mat
  | .arr A => some A
  | _ => Option.none

/-- `None` stands for the stored input (`QSystem.py:53-54`). -/
def orStored (stored : Inp) : Inp → Inp
  | .none => stored
  | i => i

/-- The state of a single system (`QSystem.py:163-164`). -/
noncomputable def leafState (m : ℤ) (d : ℕ) (coef : Bool) (i : Inp) : Option (Option Mat) :=
  match i with
  | .none => none
  | i => if m < d then (Toolbox.superPos d (toExc i) (!coef)).map fun k => some (ofKet k) else some none

/-- `tensorProd(*subSysStates) if not any(inst is None ...) else None` (`QSystem.py:161`). -/
def joinStates (sts : List (Option Mat)) : Option (Option Mat) :=
  match allSome sts with
  | none => some none
  | some As => (tensorProd (As.map .mat)).map some

mutual
/-- `_createInitialState` with its decorator (`QSystem.py:38-57, 152-169`).  Outer `none`: an exception; inner `none`: the value `None`
(with a warning). -/
noncomputable def create : St → Inp → Option (Option Mat)
  | node comp dim coef stored cache s, inp =>
    match maxInput inp, inp.asArr with
    | none, _ => none
    | some _, some A => if A.rows = dimension (node comp dim coef stored cache s) then some (some A) else none
    | some m, none =>
      if comp = some true then
        match inputsFor s (orStored stored inp) with
        | none => none
        | some l => match createSubs s l with | none => none | some sts => joinStates sts
      else leafState m dim coef (orStored stored inp)
/-- The states of the sub-systems, in order. -/
noncomputable def createSubs : List St → List Inp → Option (List (Option Mat))
  | [], _ => some []
  | _ :: _, [] => none
  | t :: r, i :: l =>
    match create t i with
    | none => none
    | some a => match createSubs r l with | none => none | some as => some (a :: as)
end

mutual
/-- The setter `initialState` (`QSystem.py:173-191`, `QSimBase.py:226-229`) of a system and, for a composite, of its sub-systems. -/
noncomputable def assign : St → Inp → Option St
  | node none _ _ _ _ _, _ => none
  | node (some true) d f _ c s, inp =>
    match (match inp with
      | .arr _ => some s
      | .list l => if l.length = s.length then assignSubs s l else none
      | _ => none) with
    | none => none
    | some s' =>
      match create (node (some true) d f inp c s') inp with
      | none => none
      | some r => some (node (some true) d f inp r s')
  | node (some false) d f _ c s, inp =>
    match create (node (some false) d f inp c s) inp with
    | none => none
    | some r => some (node (some false) d f inp r s)
/-- The sub-systems one after the other. -/
noncomputable def assignSubs : List St → List Inp → Option (List St)
  | [], _ => some []
  | _ :: _, [] => none
  | t :: r, i :: l =>
    match assign t i with
    | none => none
    | some t' => match assignSubs r l with | none => none | some r' => some (t' :: r')
end

/-- The setter called on the system at the given path: the stored state of the system directly above it is dropped
(`QSystem.py:180-181`). -/
noncomputable def assignAt : St → List ℕ → Inp → Option St
  | t, [], inp => assign t inp
  | node k d f i c s, n :: p, inp =>
    match s[n]? with
    | none => none
    | some t =>
      match assignAt t p inp with
      | none => none
      | some t' => some (node k d f i (if p = [] then none else c) (s.set n t'))

/-- The getter `initialState` (`QSimBase.py:197-224`): the value and the system afterwards. -/
noncomputable def read (t : St) : Option (Option Mat × St) :=
  match (match t.cache with | none => none | some A => if A.rows = t.dimension then some A else none) with
  | some A => some (some A, t)
  | none => match create t t.input with | none => none | some r => some (r, t.setCache r)

end Verif.Init
