import Verif.Flags.Props

/-!
# Model of the cached Hamiltonians (`classes/QSystem.py`, `classes/QTerms.py`)

Objects are numbers: quantum systems, terms, and others (simulations, protocols). What `_paramUpdated` and `delMatrices` do is the
model of `Verif.Flags`. Matrices, dimensions, operators and frequencies are arbitrary types: the results do not depend on how the
matrices are computed.
-/
namespace Verif.Ham
open Verif.Flags

/-- How matrices are made: the integer `0` with which `sum` starts, `+` (`none`: shapes do not fit), `frequency*matrix`, and
`QTerm._constructMatrices` (`QTerms.py:281-318`) for the dimensions and positions of the systems of a term, its operators and orders
(`none`: an exception). -/
structure Alg (F D O M : Type) where
  zero : M
  add : M → M → Option M
  smul : F → M → M
  free : List (D × O × Nat) → Option M

/-- What does not change: the recursion limit, which objects are instances of `QTerm`, and the objects besides `__paramBound` and
`subSys` visited by `delMatrices` (`simulation`, `QSimComp.py:165-173`). -/
structure Cfg where
  lim : Nat
  isTerm : Nat → Bool
  extra : Nat → List Nat := fun _ => []

/-- All objects. -/
structure St (F D O M : Type) where
  /-- `subSys` of a system -/
  sub : Nat → List Nat
  /-- `terms` of a system -/
  terms : Nat → List Nat
  /-- `__paramBound`, without the free evolutions -/
  bound : Nat → List Nat
  /-- `dimension`, `_dimsBefore` and `_dimsAfter` of a system -/
  dims : Nat → D
  /-- `qSystem` of a term, a list of one for a single system -/
  qsys : Nat → List Nat
  /-- `operator` of a term -/
  oper : Nat → Option (List O)
  /-- `order` of a term -/
  order : Nat → List Nat
  /-- `frequency` of a term -/
  freq : Nat → Option F
  /-- `__matrix`: the total Hamiltonian of a system, the matrix without frequency of a term -/
  mat : Nat → Option M
  /-- `__HamiltonianTerm` of a term -/
  ham : Nat → Option M
  /-- `__paramUpdated` -/
  flag : Nat → Bool
  /-- `__matrix`, `__paramUpdated` and `fixed` of the free evolution of a system (`QSystem.py:97-98`), which is in the `__paramBound` of the
  system (`QPro.py:183-185`); instead of the exponential the Hamiltonian is stored -/
  feMat : Nat → Option M
  feFlag : Nat → Bool
  feFixed : Nat → Bool

variable {F D O M : Type}

/-- New objects with the given parameters: nothing computed, everything marked (`baseClasses.py:138-143`). -/
def St.new (dims : Nat → D) (qsys : Nat → List Nat) (oper : Nat → Option (List O)) (order : Nat → List Nat) (freq : Nat → Option F) :
    St F D O M where
  sub := fun _ => []
  terms := fun _ => []
  bound := fun t => if (qsys t).length = 1 then qsys t else []
  dims := dims
  qsys := qsys
  oper := oper
  order := order
  freq := freq
  mat := fun _ => none
  ham := fun _ => none
  flag := fun _ => true
  feMat := fun _ => none
  feFlag := fun _ => true
  feFixed := fun _ => false

/-- `_constructMatrices` of a term, the value: `none` is an exception, also if the operator is missing (`QTerms.py:290-291`).
Simplification: the operators of the parts of a coupling are those of the coupling. -/
def freeNow (A : Alg F D O M) (st : St F D O M) (t : Nat) : Option M :=
  (st.oper t).bind fun os => A.free (((st.qsys t).map st.dims).zip (os.zip (st.order t)))

/-- `_paramUpdated = True` (`baseClasses.py:198-202`), on an object and its free evolution; `none`: RecursionError. -/
def mark (c : Cfg) (st : St F D O M) (n : Nat) : Option (St F D O M) :=
  (Flags.mark st.bound true c.lim n fun _ => false).map fun f =>
    { st with flag := fun x => st.flag x || f x, feFlag := fun x => st.feFlag x || f x }

/-- The graph of `delMatrices`. -/
def graph (c : Cfg) (st : St F D O M) : Graph where
  kids := fun n => st.bound n ++ st.sub n ++ c.extra n
  post := fun n => st.terms n

/-- `delMatrices(_exclude=[])` (`baseClasses.py:204-236`, `QSystem.py:411-421`); `none`: RecursionError. -/
def delMatrices (c : Cfg) (st : St F D O M) (n : Nat) : Option (St F D O M) :=
  (Flags.del (graph c st) c.lim n ⟨st.mat, []⟩).map fun d =>
    { st with mat := d.mat, feMat := fun x => if x ∈ d.exc then none else st.feMat x }

/-- `_freeMatrix` getter of a term (`QTerms.py:245-258`). -/
def freeMatrix (A : Alg F D O M) (st : St F D O M) (t : Nat) : St F D O M × Option M :=
  match st.mat t with
  | some m => (st, some m)
  | none => match freeNow A st t with
    | none => (st, none)
    | some m => ({ st with mat := Function.update st.mat t (some m), ham := Function.update st.ham t none }, some m)

/-- `QTerm.totalHamiltonian` (`QTerms.py:232-242`). -/
def termTotal (A : Alg F D O M) (st : St F D O M) (t : Nat) : St F D O M × Option M :=
  match st.freq t with
  | none => (st, none)
  | some w =>
    if (st.ham t).isNone || st.flag t || (st.mat t).isNone then
      match freeMatrix A st t with
      | (st, none) => (st, none)
      | (st, some m) => ({ st with ham := Function.update st.ham t (some (A.smul w m)), flag := Function.update st.flag t false },
          some (A.smul w m))
    else (st, st.ham t)

/-- `sum(f(x) for x in l)`, stopping at the first exception. -/
def sumLoop (A : Alg F D O M) (f : Nat → St F D O M → St F D O M × Option M) : List Nat → St F D O M → M → St F D O M × Option M
  | [], st, v => (st, some v)
  | x :: l, st, v => match f x st with
    | (st, none) => (st, none)
    | (st, some m) => match A.add v m with
      | none => (st, none)
      | some v => sumLoop A f l st v

/-- `QuantumSystem.totalHamiltonian`, `_subSysHamiltonian`, `_termHamiltonian` (`QSystem.py:193-215`). -/
def total (A : Alg F D O M) : Nat → Nat → St F D O M → St F D O M × Option M
  | 0, _, st => (st, none)
  | lim + 1, s, st =>
    if st.flag s || (st.mat s).isNone then
      match sumLoop A (total A lim) (st.sub s) st A.zero with
      | (st, none) => (st, none)
      | (st, some a) => match sumLoop A (fun t st => termTotal A st t) ((st.terms s).filter fun t => (st.oper t).isSome) st A.zero with
        | (st, none) => (st, none)
        | (st, some b) => match A.add a b with
          | none => (st, none)
          | some m => ({ st with mat := Function.update st.mat s (some m), flag := Function.update st.flag s false }, some m)
    else (st, st.mat s)

/-- `QuantumSystem.unitary` (`QSystem.py:529-535`) with `genericProtocol.unitary` (`QPro.py:193-206`) of the free evolution. -/
def unitary (A : Alg F D O M) (c : Cfg) (st : St F D O M) (q : Nat) : St F D O M :=
  let run : St F D O M → St F D O M := fun st => match total A c.lim q st with
    | (st, none) => st
    | (st, some m) => { st with
        feMat := Function.update st.feMat q (some m), feFlag := Function.update st.feFlag q false, flag := Function.update st.flag q false }
  if st.feFlag q then
    if st.feFixed q then { st with flag := Function.update st.flag q false } else run st
  else if (st.feMat q).isNone then run st
  else { st with flag := Function.update st.flag q false }

/-- Dropping the couplings with `y` from the terms of `p`, then `delMatrices` and a mark (`QSystem.py:513-518`, `QTerms.py:117-124`). -/
def dropTerms (c : Cfg) (st : St F D O M) (p y : Nat) : Option (St F D O M) :=
  let st := { st with terms := Function.update st.terms p ((st.terms p).filter fun t => !(1 < (st.qsys t).length && (st.qsys t).contains y)) }
  (delMatrices c st p).bind fun st => mark c st p

/-- The pairs `(p, y)` of the nested calls `p._removeSubSysExc(y)` while a composite `x` is removed (`QSystem.py:481-487`), innermost first;
`none`: RecursionError. -/
def innerDrops (sub : Nat → List Nat) : Nat → Nat → Option (List (Nat × Nat))
  | 0, _ => none
  | lim + 1, x => (sub x).foldl (fun acc q => acc.bind fun l => (innerDrops sub lim q).map fun l' => l ++ l' ++ [(x, q)]) (some [])

/-- Several of them. -/
def dropAll (c : Cfg) : List (Nat × Nat) → St F D O M → Option (St F D O M)
  | [], st => some st
  | (p, y) :: l, st => (dropTerms c st p y).bind (dropAll c l)

/-- What a user does. New dimensions and positions are those computed by the code modelled in `Verif.Tree`; here they are arbitrary. -/
inductive Op (F D O : Type)
  | frequency (t : Nat) (w : Option F)
  | operator (t : Nat) (os : List O)
  | order (t : Nat) (l : List Nat)
  | qSystem (t : Nat) (qs : List Nat)
  | dimension (q : Nat) (d : Nat → D)
  | addSub (s x : Nat) (d : Nat → D)
  /-- `x` is found in `s`, the `callers` were asked before -/
  | removeSub (s x : Nat) (callers : List Nat) (d : Nat → D)
  | addTerm (s t : Nat)
  /-- `t` is found in `s`, the `callers` were asked before -/
  | removeTerm (s t : Nat) (callers : List Nat)
  | resetTerms (s : Nat)
  | resetSub (s : Nat)
  | total (s : Nat)
  | termTotal (t : Nat)
  /-- `_constructMatrices` of a term; for a system (`QSystem.py:118-137`, run before every simulation) that of all terms inside -/
  | construct (t : Nat)
  | unitary (q : Nat)
  | fixed (q : Nat) (b : Bool)
  /-- a mark set for another reason, such as a changed position or a part of a coupling -/
  | touch (n : Nat)
  | del (n : Nat)

variable [DecidableEq F] [DecidableEq O]

/-- One operation; `none` is an exception raised by an assignment (the history stops), exceptions of evaluations are ignored by the user.
`operator`, `order`: `QTerms.py:157-190`; `frequency`: 225-230; `qSystem`: 100-115. Checks of arguments besides types are not modelled. -/
def step (A : Alg F D O M) (c : Cfg) (st : St F D O M) : Op F D O → Option (St F D O M)
  | .frequency t w =>
    if !c.isTerm t then none
    else if w ≠ st.freq t then mark c { st with freq := Function.update st.freq t w } t else some st
  | .operator t os =>
    if !c.isTerm t then none
    else (if some os ≠ st.oper t then mark c { st with oper := Function.update st.oper t (some os) } t else some st).map fun st =>
      if st.flag t then { st with mat := Function.update st.mat t none } else st
  | .order t l =>
    if !c.isTerm t then none
    else (if l ≠ st.order t then mark c { st with order := Function.update st.order t l } t else some st).map fun st =>
      if st.flag t then { st with mat := Function.update st.mat t none } else st
  | .qSystem t qs =>
    if c.isTerm t then
      let st1 := { st with oper := Function.update st.oper t none, order := Function.update st.order t (qs.map fun _ => 1),
                           bound := if qs.length = 1 then Function.update st.bound t (st.bound t ++ qs) else st.bound }
      if qs ≠ st.qsys t then mark c { st1 with qsys := Function.update st.qsys t qs } t else some st1
    else none
  | .dimension q d => (mark c st q).bind fun st => delMatrices c { st with dims := d } q
  | .addSub s x d =>
    if c.isTerm s || c.isTerm x then none
    else (mark c st s).bind fun st => delMatrices c { st with
        sub := Function.update st.sub s (if x ∈ st.sub s then st.sub s else st.sub s ++ [x]),
        bound := Function.update st.bound x (st.bound x ++ [s]), dims := d } s
  | .removeSub s x callers d =>
    if x ∈ st.sub s then
      (innerDrops st.sub c.lim x).bind fun inner => (dropAll c inner st).bind fun st =>
        (delMatrices c { st with sub := Function.update st.sub s ((st.sub s).erase x), dims := d } x).bind
          (dropAll c ((s, x) :: callers.map fun p => (p, x)))
    else none
  | .addTerm s t =>
    if c.isTerm t && !c.isTerm s then
      (mark c { st with terms := Function.update st.terms s (if t ∈ st.terms s then st.terms s else st.terms s ++ [t]) } s).map fun st =>
        { st with bound := Function.update st.bound t (st.bound t ++ [s]) }
    else none
  | .removeTerm s t callers =>
    (s :: callers).foldl (fun acc p => acc.bind fun st => (delMatrices c st p).bind fun st => mark c st p)
      (some { st with terms := Function.update st.terms s ((st.terms s).erase t) })
  | .resetTerms s => some { st with terms := Function.update st.terms s [] }
  | .resetSub s => some { st with sub := Function.update st.sub s [] }
  | .total s => if c.isTerm s then none else some (total A c.lim s st).1
  | .termTotal t => if c.isTerm t then some (termTotal A st t).1 else none
  | .construct t => if c.isTerm t then
      match freeNow A st t with
      | none => some st
      | some m => some { st with mat := Function.update st.mat t (some m), ham := Function.update st.ham t none }
    else none
  | .unitary q => if c.isTerm q then none else some (unitary A c st q)
  | .fixed q b => some { st with feFixed := Function.update st.feFixed q b }
  | .touch n => mark c st n
  | .del n => delMatrices c st n

/-! ## Specification -/

/-- The Hamiltonian of a term with the current parameters. -/
def termNow (A : Alg F D O M) (st : St F D O M) (t : Nat) : Option M :=
  (st.freq t).bind fun w => (freeNow A st t).map (A.smul w)

/-- The sum of the values of a list. -/
def sumNow (A : Alg F D O M) (f : Nat → Option M) : List Nat → M → Option M
  | [], v => some v
  | x :: l, v => (f x).bind fun m => (A.add v m).bind (sumNow A f l)

/-- The Hamiltonian of a system computed from the current parameters only, looking at the given depth. -/
def hamNow (A : Alg F D O M) (st : St F D O M) : Nat → Nat → Option M
  | 0, _ => none
  | n + 1, s => (sumNow A (hamNow A st n) (st.sub s) A.zero).bind fun a =>
      (sumNow A (termNow A st) ((st.terms s).filter fun t => (st.oper t).isSome) A.zero).bind (A.add a)

/-- `q` is `s` or inside `s`. -/
def Inside (sub : Nat → List Nat) (s q : Nat) : Prop := Relation.ReflTransGen (fun a b => b ∈ sub a) s q

/-- The systems belong to the same structure. -/
def Linked (sub : Nat → List Nat) (a b : Nat) : Prop := Relation.ReflTransGen (fun a b => b ∈ sub a ∨ a ∈ sub b) a b

/-- Operations after which the Hamiltonian is up to date: positions change only in the structure concerned; terms act on systems inside the
system they belong to; a term added is new or in use already; a term gets other systems, not the same again; no dictionary is emptied; the
free evolution is not fixed. -/
def Careful (st : St F D O M) : Op F D O → Prop
  | .qSystem t qs => qs ≠ st.qsys t ∧ ∀ s, t ∈ st.terms s → ∀ q ∈ qs, Inside st.sub s q
  | .dimension q d => ∀ y, d y ≠ st.dims y → Linked st.sub q y
  | .addSub s x d => ∀ y, d y ≠ st.dims y → Linked (Function.update st.sub s (if x ∈ st.sub s then st.sub s else st.sub s ++ [x])) s y
  | .removeSub _ x _ d => ∀ y, d y ≠ st.dims y → Linked st.sub x y
  | .addTerm s t => (st.mat t = none ∨ ∃ s', t ∈ st.terms s') ∧ ∀ q ∈ st.qsys t, Inside st.sub s q
  | .resetTerms _ => False
  | .resetSub _ => False
  | .unitary q => st.feFixed q = false
  | _ => True

/-- `Runs A c st ops st'`: the operations, all of them careful, lead from `st` to `st'` without an exception. -/
inductive Runs (A : Alg F D O M) (c : Cfg) : St F D O M → List (Op F D O) → St F D O M → Prop
  | nil (st : St F D O M) : Runs A c st [] st
  | cons {st st1 st2 : St F D O M} {op : Op F D O} {ops : List (Op F D O)} (hc : Careful st op) (h1 : step A c st op = some st1)
      (h2 : Runs A c st1 ops st2) : Runs A c st (op :: ops) st2

end Verif.Ham
