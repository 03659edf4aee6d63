/-!
# C91: operators and orders of a term

The setters `qSystem`, `operator` and `order` of a term (`classes/QTerms.py:100-115, 157-217`) and what `_constructMatrices` makes of them
(`:264-318`).  A coupling keeps its operators and orders twice: in the term itself, and one by one in the sub-terms from which the matrix is
made.  Simplifications: systems are numbers, operators are values `Op` with a test for Pauli operators; the matrix is the list of its factors
(system, dimension, operator, order), what the factors are is C29; flags and stored matrices are left out (C13, C67); the systems of a coupling
are given as objects, not by names (C22), and are not lists themselves.
-/
namespace Verif.Term

/-- The exceptions. -/
inductive Err
  | type | value | index
deriving DecidableEq, Repr

/-- One value, or a list or tuple of values. -/
inductive Vals (α : Type)
  | one (a : α) | many (l : List α)
deriving DecidableEq, Repr

/-- The sub-term of one system of a coupling (`QTerms.py:111`): its system, operator (`None` at first) and order. -/
structure Sub (Op : Type) where
  sys : Nat
  oper : Option Op
  order : Int
deriving DecidableEq, Repr

/-- `setAttr(ter, '_QTerm__operator', o)`. -/
def Sub.withOper {Op : Type} (s : Sub Op) (o : Option Op) : Sub Op := { s with oper := o }

/-- `setAttr(ter, '_QTerm__order', r)`. -/
def Sub.withOrder {Op : Type} (s : Sub Op) (r : Int) : Sub Op := { s with order := r }

/-- A term: `__qSys`, `__operator`, `__order`, `subSys` (`QTerms.py:43-72`), and whether it has a `superSys`. -/
structure T (Op : Type) where
  qsys : Option (Vals Nat)
  oper : Vals (Option Op)
  order : Vals Int
  subs : List (Sub Op)
  super : Bool
deriving DecidableEq, Repr

/-- A new term. -/
def T.new (Op : Type) (super : Bool) : T Op := ⟨none, .one none, .one 1, [], super⟩

/-- The setter `qSystem` (`QTerms.py:100-115`). -/
def setQSystem {Op : Type} (t : T Op) : Vals Nat → Except Err Unit × T Op
  | .one s => (.ok (), { t with qsys := some (.one s), oper := .one none, order := .one 1, subs := [] })
  | .many l =>
    if t.super then (.ok (), { t with qsys := some (.many l), oper := .one none, order := .one 1, subs := l.map fun s => ⟨s, none, 1⟩ })
    else (.error .value, t)

/-- The checks of `_checkAndUpdateParamsWhenMultiple` (`QTerms.py:175-183`): `true` if the sub-terms are updated. -/
def checkMultiple {α : Type} (q : Option (Vals Nat)) (v : Vals α) : Except Err Bool :=
  match q, v with
  | none, _ => .error .value
  | some (.one _), .one _ => .ok false
  | some (.one _), .many _ => .error .type
  | some (.many _), .one _ => .error .type
  | some (.many l), .many v => if v.length = l.length then .ok true else .error .value

/-- The loop over the sub-terms (`QTerms.py:184-185`): `vals[ind]` is assigned to the one at `ind`. -/
def assignSubs {Op α : Type} (set : Sub Op → α → Sub Op) : List (Sub Op) → List α → Except Err Unit × List (Sub Op)
  | [], _ => (.ok (), [])
  | s :: ss, [] => (.error .index, s :: ss)
  | s :: ss, a :: as => match assignSubs set ss as with
    | (r, ss) => (r, set s a :: ss)

/-- The list in `v`. -/
def Vals.toList {α : Type} : Vals α → List α
  | .one a => [a]
  | .many l => l

/-- `not (_isOperPauli(oper) and not dim in (2, 1))` (`QTerms.py:279-280`). -/
def dimFits {Op : Type} (pauli : Op → Bool) (d : Nat) : Option Op → Bool
  | none => true
  | some o => !(pauli o && !(d = 2 || d = 1))

/-- `_isCorrectPauliDim` for a list of systems (`QTerms.py:274-276`): `oper[ind]` for each of them. -/
def pauliDims {Op : Type} (pauli : Op → Bool) (dims : Nat → Nat) : List Nat → List (Option Op) → Except Err Unit
  | [], _ => .ok ()
  | _ :: _, [] => .error .index
  | s :: ss, o :: os => if dimFits pauli (dims s) o then pauliDims pauli dims ss os else .error .value

/-- `_isCorrectPauliDim(self.qSystem, vals)` (`QTerms.py:269-281`). -/
def isCorrectPauliDim {Op : Type} (pauli : Op → Bool) (dims : Nat → Nat) (q : Option (Vals Nat)) (v : Vals (Option Op)) : Except Err Unit :=
  match q with
  | none => .ok ()
  | some (.one s) => match v with
    | .one o => if dimFits pauli (dims s) o then .ok () else .error .value
    | .many _ => .ok ()
  | some (.many l) => pauliDims pauli dims l v.toList

/-- The setter `order` (`QTerms.py:215-217`); `None` stands for 1. -/
def setOrder {Op : Type} (t : T Op) (v : Option (Vals Int)) : Except Err Unit × T Op :=
  let v := v.getD (.one 1)
  match checkMultiple t.qsys v with
  | .error e => (.error e, t)
  | .ok b => match (if b then assignSubs Sub.withOrder t.subs v.toList else (.ok (), t.subs)) with
    | (.error e, subs) => (.error e, { t with subs := subs })
    | (.ok _, subs) => (.ok (), { t with subs := subs, order := v })

/-- `checkVal(self.order, 1, …); self.order = [1 for _ in op]` (`QTerms.py:202-205`). -/
def defaultOrder {Op : Type} (t : T Op) (v : Vals (Option Op)) : Except Err Unit × T Op :=
  match t.order, v with
  | .one r, .many l => if r = 1 then setOrder t (some (.many (l.map fun _ => 1))) else (.error .value, t)
  | _, _ => (.ok (), t)

/-- The setter `operator` (`QTerms.py:199-205`). -/
def setOperator {Op : Type} (pauli : Op → Bool) (dims : Nat → Nat) (t : T Op) (v : Vals (Option Op)) : Except Err Unit × T Op :=
  match checkMultiple t.qsys v with
  | .error e => (.error e, t)
  | .ok b => match (if b then assignSubs Sub.withOper t.subs v.toList else (.ok (), t.subs)) with
    | (.error e, subs) => (.error e, { t with subs := subs })
    | (.ok _, subs) => match isCorrectPauliDim pauli dims t.qsys v with
      | .error e => (.error e, { t with subs := subs })
      | .ok _ => defaultOrder { t with subs := subs, oper := v } v

/-- A factor of the matrix: system, dimension, operator, order. -/
structure Factor (Op : Type) where
  sys : Nat
  dim : Nat
  oper : Op
  order : Int
deriving DecidableEq, Repr

/-- `_dimInput` (`QTerms.py:283-308`). -/
def dimInput {Op : Type} (pauli : Op → Bool) (dims : Nat → Nat) (s : Nat) (o : Option Op) (r : Int) : Except Err (Factor Op) :=
  if dims s = 1 then .error .value
  else match o with
    | none => .error .type
    | some o => if dimFits pauli (dims s) (some o) then .ok ⟨s, dims s, o, r⟩ else .error .value

/-- The factors of the sub-terms in order, or the first exception. -/
def subFactors {Op : Type} (pauli : Op → Bool) (dims : Nat → Nat) : List (Sub Op) → Except Err (List (Factor Op))
  | [] => .ok []
  | s :: ss => match dimInput pauli dims s.sys s.oper s.order with
    | .error e => .error e
    | .ok f => match subFactors pauli dims ss with
      | .error e => .error e
      | .ok fs => .ok (f :: fs)

/-- `_constructMatrices` (`QTerms.py:310-325`).  A list of operators or orders is never with a single system (`C91_shapes`); here it would be a
TypeError.  Without a system the matrix stays `None` and `frequency*None` is a TypeError. -/
def construct {Op : Type} (pauli : Op → Bool) (dims : Nat → Nat) (t : T Op) : Except Err (List (Factor Op)) :=
  match t.qsys with
  | none => .error .type
  | some (.one s) => match t.oper, t.order with
    | .one o, .one r => (dimInput pauli dims s o r).map fun f => [f]
    | _, _ => .error .type
  | some (.many _) => subFactors pauli dims t.subs

/-- What the user does with the term and its systems. -/
inductive Cmd (Op : Type)
  | qSystem (q : Vals Nat)
  | operator (v : Vals (Option Op))
  | order (v : Option (Vals Int))
  | dimension (s d : Nat)

/-- The term and the dimensions of the systems. -/
structure St (Op : Type) where
  t : T Op
  dims : Nat → Nat

/-- One command; whether a dimension is refused (C54, C90) does not matter here. -/
def exec {Op : Type} (pauli : Op → Bool) (st : St Op) : Cmd Op → Except Err Unit × St Op
  | .qSystem q => match setQSystem st.t q with
    | (r, t) => (r, { st with t := t })
  | .operator v => match setOperator pauli st.dims st.t v with
    | (r, t) => (r, { st with t := t })
  | .order v => match setOrder st.t v with
    | (r, t) => (r, { st with t := t })
  | .dimension s d => (.ok (), { st with dims := fun x => if x = s then d else st.dims x })

/-- A program; exceptions are caught by the user. -/
def run {Op : Type} (pauli : Op → Bool) (st : St Op) : List (Cmd Op) → St Op
  | [] => st
  | c :: cs => run pauli (exec pauli st c).2 cs

/-- The order that `_createTerm` assigns (`QTerms.py:153`). -/
def givenOrder (q : Vals Nat) (r : Option (Vals Int)) : Option (Vals Int) :=
  match q, r with
  | .many l, none => some (.many (l.map fun _ => 1))
  | _, r => r

/-- `_createTerm` (`QTerms.py:127-155`) up to the frequency; the first exception ends it. -/
def createTerm {Op : Type} (pauli : Op → Bool) (dims : Nat → Nat) (q : Vals Nat) (v : Vals (Option Op)) (r : Option (Vals Int)) :
    Except Err (T Op) :=
  match setQSystem (T.new Op true) q with
  | (.error e, _) => .error e
  | (.ok _, t) => match setOperator pauli dims t v with
    | (.error e, _) => .error e
    | (.ok _, t) => match setOrder t (givenOrder q r) with
      | (.error e, _) => .error e
      | (.ok _, t) => .ok t

end Verif.Term
