import Verif.Py.Dict
/-!
# Model of update flags and matrix invalidation (`classes/baseClasses.py`)

Objects are numbers.  A dependency dictionary `__paramBound` is the list of its values in order.
-/
namespace Verif.Flags

/-- Parameters and update flags of all objects. -/
structure St (V : Type) where
  /-- `__paramBound` -/
  dep : Nat → List Nat
  /-- `__paramUpdated` -/
  flag : Nat → Bool
  /-- the attributes -/
  attr : Nat → String → V

/-- `_paramUpdated` setter (`baseClasses.py:198-202`) on the flags; `none` is a `RecursionError` with the given limit. -/
def mark (dep : Nat → List Nat) (b : Bool) : Nat → Nat → (Nat → Bool) → Option (Nat → Bool)
  | 0, _, _ => none
  | lim + 1, n, f =>
    (dep n).foldl (fun (acc : Option (Nat → Bool)) s => acc.bind fun f => mark dep b lim s f)
      (some fun x => if x = n then b else f x)

/-- `setAttr` (`QSimBase.py:39-47`). -/
def setAttr {V : Type} [DecidableEq V] (lim : Nat) (st : St V) (n : Nat) (a : String) (v : V) : Option (St V) :=
  if v ≠ st.attr n a then
    (mark st.dep true lim n st.flag).map fun f =>
      { st with flag := f, attr := fun x y => if x = n ∧ y = a then v else st.attr x y }
  else some st

/-- The object graph used by `delMatrices`: `kids n` are the objects visited only when `n` is not yet in `_exclude`, in order:
`__paramBound`, `subSys` (`baseClasses.py:230-235`; objects without the method left out), then `simulation` for
systems and protocols (`QSimComp.py:165-173`) and `__bound` for simulations (`QSimBase.py:500-505`); `post n` are the terms of
a quantum system, visited at every call (`QSystem.py:411-421`). -/
structure Graph where
  kids : Nat → List Nat
  post : Nat → List Nat

/-- The cached matrices (`__matrix` and `__matrixHc`, and the initial state of simulations) and the list `_exclude`. -/
structure DSt (M : Type) where
  mat : Nat → Option M
  exc : List Nat

/-- `delMatrices(_exclude)` (`baseClasses.py:204-236`, `QSimBase.py:279-289,500-505`, `QSimComp.py:165-173`,
`QSystem.py:411-421`); `none` is a `RecursionError` with the given limit.  `_exclude` is one list that is appended to. -/
def del {M : Type} (G : Graph) : Nat → Nat → DSt M → Option (DSt M)
  | 0, _, _ => none
  | lim + 1, n, st =>
    let first : Option (DSt M) :=
      if n ∈ st.exc then some st
      else (G.kids n).foldl (fun (acc : Option (DSt M)) k => acc.bind fun st => del G lim k st)
        (some { mat := fun x => if x = n then none else st.mat x, exc := st.exc ++ [n] })
    (G.post n).foldl (fun (acc : Option (DSt M)) k => acc.bind fun st => del G lim k st) first

/-- The interpreter between calls: the cached matrices, and the default list of each class, which Python creates once
(`_exclude: List = []`). -/
structure World (M : Type) where
  mat : Nat → Option M
  dflt : Nat → List Nat

/-- What a user does. -/
inductive Cmd (M : Type)
  /-- `n.delMatrices()`, `n` being of class `cls`: the list of that class is used, and kept -/
  | call (cls n : Nat)
  /-- `n.delMatrices(_exclude=[])`, as the library itself always calls it -/
  | callFresh (n : Nat)
  /-- the matrix of `n` is computed -/
  | compute (n : Nat) (m : M)

/-- Execute one. -/
def exec {M : Type} (G : Graph) (lim : Nat) : Cmd M → World M → Option (World M)
  | .call cls n, w => (del G lim n ⟨w.mat, w.dflt cls⟩).map fun st =>
      { mat := st.mat, dflt := fun c => if c = cls then st.exc else w.dflt c }
  | .callFresh n, w => (del G lim n ⟨w.mat, []⟩).map fun st => { w with mat := st.mat }
  | .compute n m, w => some { w with mat := fun x => if x = n then some m else w.mat x }

/-- Execute several. -/
def run {M : Type} (G : Graph) (lim : Nat) : List (Cmd M) → World M → Option (World M)
  | [], w => some w
  | c :: cs, w => (exec G lim c w).bind (run G lim cs)

/-- `Reach e a b`: `b` is reached from `a` along `e`, in any number of steps. -/
inductive Reach (e : Nat → Nat → Prop) : Nat → Nat → Prop
  | refl (a : Nat) : Reach e a a
  | step {a b c : Nat} : Reach e a b → e b c → Reach e a c

end Verif.Flags
