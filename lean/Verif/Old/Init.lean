import Verif.Init.Access

/-!
# Model of the initial states of the older system classes

`QSys.py:61-84, 198-206, 299-310, 573-585, 1039-1046`, `QSimBase.py:182-240`.  Inputs are those of `Verif.Init.Model`.  Simplifications:
systems are only added to composites, never removed; `_initialStateSystem` is resolved at every use (what it would have cached is the
same system); dimensions are not negative; a composite that holds a system without a dimension raises at every read of its dimension
(the code does so only at the first one); the errors of `superPos` are not told apart; the only systems are those of the older
classes, and the only simulations are the ones they own.
-/
namespace Verif.OldInit
open NMat
open Verif.Init (Inp orStored toExc ofKet maxInput allSome)

/-- What is raised. -/
inductive Err where
  | value | type | index | attr | superPos
  deriving DecidableEq

/-- A dimension: never given, a plain `int`, or a NumPy integer (the setter accepts both, `QSys.py:877`). -/
inductive Dim where
  | unset
  | py (n : ℕ)
  | np (n : ℕ)
  deriving DecidableEq

/-- `shape[0] == dimension`. -/
def Dim.fits : Dim → ℕ → Bool
  | .unset, _ => false
  | .py n, m => n == m
  | .np n, m => n == m

/-- `*=` of two dimensions. -/
def Dim.times : Dim → Dim → Except Err Dim
  | .py a, .py b => .ok (.py (a * b))
  | .py a, .np b => .ok (.np (a * b))
  | .np a, .py b => .ok (.np (a * b))
  | .np a, .np b => .ok (.np (a * b))
  | _, _ => .error .type

/-- A `compQSystem` (`true`) or a `qSystem` (`false`): dimension, `_inpCoef`, the input given to it itself
(`_stateBase__initialStateInput`, `none`: never assigned, so read from the composite it is in), the state given to it itself
(`_stateBase__initialState`) and the parts. -/
inductive OSt where
  | node (comp : Bool) (dim : Dim) (coef : Bool) (own : Option Inp) (state : Option Mat) (subs : List OSt)

namespace OSt
/-- The input given to the system itself. -/
def own : OSt → Option Inp | node _ _ _ o _ _ => o
/-- The parts. -/
def subs : OSt → List OSt | node _ _ _ _ _ s => s
/-- The system at a path. -/
def at? : OSt → List ℕ → Option OSt
  | t, [] => some t
  | node _ _ _ _ _ s, n :: p => match s[n]? with | none => none | some t => at? t p
/-- Change the system at a path. -/
def change (f : OSt → OSt) : OSt → List ℕ → OSt
  | t, [] => f t
  | node k d c o x s, n :: p =>
    match s[n]? with
    | none => node k d c o x s
    | some t => node k d c o x (s.set n (change f t p))

mutual
/-- `dimension` (`QSys.py:260-273`). -/
def dimension : OSt → Except Err Dim
  | node true _ _ _ _ s => dimProd s (.py 1)
  | node false d _ _ _ _ => .ok d
/-- The loop `dimension *= val`. -/
def dimProd : List OSt → Dim → Except Err Dim
  | [], acc => .ok acc
  | t :: r, acc =>
    match dimension t with
    | .error e => .error e
    | .ok d => match acc.times d with | .error e => .error e | .ok a => dimProd r a
end
end OSt
open OSt

/-- The value of the stored input: its own or, while bound, that of the composite (`QSimBase.py:118-125, 493-496`). -/
def eff (up : Inp) : Option Inp → Inp
  | none => up
  | some i => i

/-- An array is returned as it is, when its number of rows is the dimension (`QSys.py:66-69, 74-77`). -/
def useArray (d : Except Err Dim) (A : Mat) : Except Err (Option Mat) :=
  match d with
  | .error e => .error e
  | .ok D => if D.fits A.rows then .ok (some A) else .error .value

/-- `tensorProd(*inp)` (`QSys.py:585`): a lone `None` is passed on, one among several raises, nothing at all raises. -/
def joinA : List (Option Mat) → Except Err (Option Mat)
  | [none] => .ok none
  | sts =>
    match allSome sts with
    | none => .error .type
    | some As => match tensorProd (As.map .mat) with | none => .error .index | some ψ => .ok (some ψ)

/-- `qSystem._createAstate` (`QSys.py:1039-1046`). -/
noncomputable def leafA (n : ℕ) (coef : Bool) : Inp → Except Err (Option Mat)
  | .none => .error .value
  | i => match Toolbox.superPos n (toExc i) (!coef) with | none => .error .superPos | some k => .ok (some (ofKet k))

/-- What the parts of a composite are given (`QSys.py:578-584`). -/
def partInputs (s : List OSt) : Inp → Except Err (List Inp)
  | .none => .ok (s.map fun _ => .none)
  | .list l => .ok l
  | _ => .error .type

mutual
/-- `_createAstate` with its decorator (`QSys.py:61-84, 573-585`); `up` is the value of the stored input of the composite around. -/
noncomputable def createA (up : Inp) : OSt → Inp → Except Err (Option Mat)
  | node k d c o x s, inp =>
    match inp.asArr with
    | some A => useArray (dimension (node k d c o x s)) A
    | none =>
      match (orStored (eff up o) inp).asArr with
      | some A => useArray (dimension (node k d c o x s)) A
      | none =>
        match dimension (node k d c o x s) with
        | .error e => .error e
        | .ok .unset => .ok none
        | .ok (.np _) => .ok none
        | .ok (.py n) =>
          if k then
            match partInputs s (orStored (eff up o) inp) with
            | .error e => .error e
            | .ok l => match createParts (eff up o) s l with | .error e => .error e | .ok sts => joinA sts
          else leafA n c (orStored (eff up o) inp)
/-- The parts in order, each with its own entry of the list. -/
noncomputable def createParts (up : Inp) : List OSt → List Inp → Except Err (List (Option Mat))
  | [], _ => .ok []
  | _ :: _, [] => .error .index
  | t :: r, i :: l =>
    match createA up t i with
    | .error e => .error e
    | .ok a => match createParts up r l with | .error e => .error e | .ok as => .ok (a :: as)
end

/-! ### The public property -/

/-- The methods for states of the two classes (`QSys.py:573-574, 1039-1040`). -/
def stateMethods : Bool → List String
  | true => ["_createAstate"]
  | false => ["_createAstate"]

/-- `hasattr(system, '_createState')`. -/
def hasCreate : OSt → Bool
  | node k _ _ _ _ _ => "_createState" ∈ stateMethods k

/-- `initialStateSystem` (`QSimBase.py:182-188`) of the simulation of the system at the path: that system when it can create states,
otherwise the system around it. -/
def initSystem (t : OSt) (p : List ℕ) : Except Err (List ℕ) :=
  match at? t p with
  | none => .error .index
  | some q => if hasCreate q then .ok p else if p = [] then .error .value else .ok p.dropLast

/-- The value of the stored input of the system at the path. -/
def inputAt (up : Inp) : OSt → List ℕ → Inp
  | node _ _ _ o _ _, [] => eff up o
  | node _ _ _ o _ s, n :: p => match s[n]? with | none => eff up o | some t => inputAt (eff up o) t p

/-- The value of the stored state of the system at the path: its own or, while bound, that of the composite around. -/
def stateAt (up : Option Mat) : OSt → List ℕ → Option Mat
  | node _ _ _ _ x _, [] => x.or up
  | node _ _ _ _ x s, n :: p => match s[n]? with | none => x.or up | some t => stateAt (x.or up) t p

/-- `initSys._createState(inp, ...)`. -/
noncomputable def callCreate (t : OSt) (p : List ℕ) (inp : Inp) : Except Err (Option Mat) :=
  match initSystem t p with
  | .error e => .error e
  | .ok q =>
    match at? t q with
    | none => .error .index
    | some s => if hasCreate s then createA (inputAt .none t q.dropLast) s inp else .error .attr

/-- Drop the own state. -/
def clearState : OSt → OSt | node k d c o _ s => node k d c o none s
/-- Keep an input. -/
def setInput (i : Inp) : OSt → OSt | node k d c _ x s => node k d c (some i) x s
/-- Keep a state. -/
def setState (ψ : Option Mat) : OSt → OSt | node k d c o _ s => node k d c o ψ s

/-- The setter `initialState` (`QSys.py:299-310`, `QSimBase.py:224-228, 237-240`) on the system at the path: what it raises, if it
does, and the systems afterwards.  (The assignments to the parts that follow for a list are not reached, `C99_assign_raises`; they
are left out.) -/
noncomputable def assign (t : OSt) (p : List ℕ) (inp : Inp) : Option Err × OSt :=
  let t₁ := if p = [] then t else change clearState t p.dropLast
  match maxInput inp with
  | none => (some .value, t₁)
  | some _ =>
    let t₂ := change (setInput inp) t₁ p
    match callCreate t₂ p inp with
    | .error e => (some e, t₂)
    | .ok ψ => (none, change (setState ψ) t₂ p)

/-- `self.initialStateSystem.dimension` in the getter. -/
def initDim (t : OSt) (p : List ℕ) : Except Err Dim :=
  match initSystem t p with
  | .error e => .error e
  | .ok q => match at? t q with | none => .error .index | some s => dimension s

/-- The getter `initialState` (`QSimBase.py:197-222`): while the state is bound the composite is asked. -/
noncomputable def read (t : OSt) (p : List ℕ) : Except Err (Option Mat) :=
  match (match stateAt none t p with
    | none => .ok none
    | some A =>
      match initDim t p with
      | .error e => .error e
      | .ok D => .ok (if D.fits A.rows then some A else none) : Except Err (Option Mat)) with
  | .error e => .error e
  | .ok (some A) => .ok (some A)
  | .ok none => if p = [] then callCreate t p (inputAt .none t p) else read t p.dropLast
termination_by p.length
decreasing_by
  rename_i h
  have : 0 < p.length := List.length_pos_iff.2 h
  rw [List.length_dropLast]; omega

mutual
/-- `copy` (`QSys.py:189-206`), as far as it can raise: the parts are copied first, then the stored input (`_value`) is assigned to the
new system, which stands alone. -/
noncomputable def copy : OSt → Except Err Unit
  | node k d c o _ s =>
    match copyParts s with
    | .error e => .error e
    | .ok () =>
      match eff .none o with
      | .none => .ok ()
      | i => match (assign (node k d c none none s) [] i).1 with | some e => .error e | none => .ok ()
/-- The parts. -/
noncomputable def copyParts : List OSt → Except Err Unit
  | [] => .ok ()
  | t :: r => match copy t with | .error e => .error e | .ok () => copyParts r
end

end Verif.OldInit
