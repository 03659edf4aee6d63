import Verif.Tree.Pauli
import Verif.Toolbox.Operators
import Mathlib.Data.Rat.Floor

/-!
# The spin quantum number of a system (C104): model

`Spin.jValue`, `Qubit(...)` of the newer classes (`QSystem.py`) and `SpinOld.jValue`, `QubitOld(...)` of the older ones (`QSys.py`).
Simplifications: arithmetic on numbers is exact; the updates in composites and the deletion of matrices are in the models of C26 and C67;
terms are represented as for C54.
-/
namespace Verif.SpinJ
open Verif.Toolbox Verif.Tree

/-- Exceptions. -/
inductive Err
  | value
  | type
  | overflow
  deriving DecidableEq, Repr

/-- What is assigned to `jValue` or `dimension`: integers, other numbers, and values that are no (finite, real) numbers. -/
inductive Val
  | int (n : ℤ)
  | float (q : ℚ)
  | nan
  | inf
  | complex
  | other
  deriving DecidableEq

/-- `int(x)` of a number: towards zero. -/
def trunc (q : ℚ) : ℤ := if 0 ≤ q then ⌊q⌋ else ⌈q⌉

/-- `int((2*value) + 1)` (`QSystem.py:814`, `QSys.py:1081`).  For strings, lists and `None` the sum or the product raises. -/
def dimOf : Val → Except Err ℤ
  | .int n => .ok (2 * n + 1)
  | .float q => .ok (trunc (2 * q + 1))
  | .nan => .error .value
  | .inf => .error .overflow
  | .complex => .error .type
  | .other => .error .type

/-- A system: which classes it is of, its `__dimension`, the frequency of its first term, and its terms with those of the composites
containing it. -/
structure Spin where
  older : Bool
  dim : ℤ
  freq : ℂ
  terms : List (List Pauli.Term)

/-- The setter of `dimension` on an integer: `QSystem.py:247-257` (positive, and the test of C54), `QSys.py:871-883` (any integer). -/
def setDimInt (s : Spin) (d : ℤ) : Except Err Spin :=
  if s.older then .ok { s with dim := d }
  else if 0 < d then
    if Pauli.accepts d.toNat s.terms then .ok { s with dim := d } else .error .value
  else .error .value

/-- The setter of `dimension`: only integers (`TypeError` at `QSystem.py:253`, `ValueError` at `QSys.py:877`). -/
def setDim (s : Spin) : Val → Except Err Spin
  | .int d => setDimInt s d
  | _ => .error (if s.older then .value else .type)

/-- The setter of `jValue` (`QSystem.py:811-814`, `QSys.py:1078-1081`).  The slot `__jValue` that is also assigned is never read. -/
def setJ (s : Spin) (v : Val) : Except Err Spin := do setDimInt s (← dimOf v)

/-- The getter of `jValue` (`QSystem.py:804-809`, `QSys.py:1071-1076`). -/
def jValue (s : Spin) : ℚ := (s.dim - 1) / 2

/-- The Hamiltonian of a spin of the newer class with the operator `Jz` it is made with, on its own: `frequency * Jz(0.5*(dim-1))`;
`ValueError` for dimension one (`QTerms.py:280-299`). -/
noncomputable def ham (s : Spin) : Except Err (Σ d, Op d) :=
  if s.dim = 1 then .error .value
  else .ok ⟨_, s.freq • Jz (1 / 2 * ((s.dim : ℚ) - 1))⟩

/-- Keywords. -/
inductive Key
  | jValue
  | dimension
  deriving DecidableEq

/-- `setattr(self, key, value)`. -/
def assign (s : Spin) : Key × Val → Except Err Spin
  | (.jValue, v) => setJ s v
  | (.dimension, v) => setDim s v

/-- `_named__setKwargs` (`base.py:492-505`): the keywords in their order; the constructor raises with the first that raises. -/
def setKwargs (s : Spin) : List (Key × Val) → Except Err Spin
  | [] => .ok s
  | kv :: rest => do setKwargs (← assign s kv) rest

/-- `kwargs['dimension'] = 2`: the value is replaced where the keyword is, else the keyword is the last. -/
def withTwo : List (Key × Val) → List (Key × Val)
  | [] => [(.dimension, .int 2)]
  | (k, v) :: rest => if k = .dimension then (k, .int 2) :: rest else (k, v) :: withTwo rest

/-- `Spin(...)` and `SpinOld(...)` (`QSystem.py:795-802`, `QSys.py:1062-1069`): dimension one, the term with `Jz`.
Simplification: in the older class the dimension is `None` until it is assigned, so that reading `jValue` raises; here it is one. -/
def newSpin (older : Bool) (freq : ℂ) (kw : List (Key × Val)) : Except Err Spin :=
  setKwargs ⟨older, 1, freq, [[[(0, false)]]]⟩ kw

/-- `Qubit(...)` and `QubitOld(...)` (`QSystem.py:830-836`, `QSys.py:1097-1102`). -/
def newQubit (older : Bool) (freq : ℂ) (kw : List (Key × Val)) : Except Err Spin :=
  setKwargs ⟨older, if older then 1 else 2, freq, [[[(0, false)]]]⟩ (withTwo kw)

/-- Statements in a program: assignments, going on with the old object after an exception. -/
def run (s : Spin) (as : List (Key × Val)) : Spin :=
  as.foldl (fun (s : Spin) (a : Key × Val) => match assign s a with
    | .ok s' => s'
    | .error _ => s) s

end Verif.SpinJ
