import Verif.Ham.Props
import Verif.NMat.Props

/-!
# C78: jump operators of dissipators

Source: `/repo/src/quanguru/classes/environment.py:19-115`, on top of the objects of `Verif.Ham` (systems, terms, marks and `delMatrices`).
A dissipator is one more object: `__matrix` (`jOperMatrix`) and `__paramUpdated` are those of `Verif.Ham.St`, and it is in the
`__paramBound` of its system (`environment.py:44-48`), so that marks and deletions reach it.
-/
namespace Verif.Env.Jump
open Verif.Ham Verif.Flags

variable {F D O M J : Type}

/-! ## Model -/

/-- `compositeOp(jOper, dimB=_dimsBefore, dimA=_dimsAfter)` (`environment.py:107-108`) and the shapes of the two kinds of sparse matrices.
`setAttr` compares with `!=` (`QSimBase.py:44-45`): for sparse matrices of different shapes this is `True`, for the same shape it is a
matrix, whose truth value is a ValueError. Simplification: one by one matrices are treated like the others. -/
structure JAlg (F D O M J : Type) extends Alg F D O M where
  jump : D → J → M
  shapeJ : J → Nat
  shapeM : M → Nat

/-- What does not change; `isDiss`: which objects are instances of `dissipatorObj`. -/
structure JCfg where
  ham : Cfg
  isDiss : Nat → Bool

/-- All objects. -/
structure JSt (F D O M J : Type) where
  ham : St F D O M
  /-- `superSys` of a dissipator -/
  sysOf : Nat → Option Nat
  /-- `__operator` of a dissipator (`environment.py:63`) -/
  jop : Nat → Option J
  /-- keys of `__dissipator` of the free evolution of a system, in order (`QPro.py:103`) -/
  protos : Nat → List Nat

/-- New objects. -/
def JSt.new (h : St F D O M) : JSt F D O M J where
  ham := h
  sysOf := fun _ => none
  jop := fun _ => none
  protos := fun _ => []

/-- What a user does. The rates are the subject of C66. -/
inductive JOp (F D O J : Type) where
  /-- anything with systems and terms -/
  | ham (op : Op F D O)
  /-- `d.system = s` -/
  | system (d s : Nat)
  /-- `d.addToProtocol(s._freeEvol)` -/
  | addTo (d s : Nat)
  /-- `d.jOper = j` -/
  | jOper (d : Nat) (j : J)
  /-- `d.jOperMatrix = None` -/
  | refresh (d : Nat)

/-- The objects an operation is about. -/
def objs : Op F D O → List Nat
  | .frequency t _ => [t]
  | .operator t _ => [t]
  | .order t _ => [t]
  | .qSystem t qs => t :: qs
  | .dimension q _ => [q]
  | .addSub s x _ => [s, x]
  | .removeSub s x callers _ => s :: x :: callers
  | .addTerm s t => [s, t]
  | .removeTerm s t callers => s :: t :: callers
  | .resetTerms s => [s]
  | .resetSub s => [s]
  | .total s => [s]
  | .termTotal t => [t]
  | .construct t => [t]
  | .unitary q => [q]
  | .fixed q _ => [q]
  | .touch _ => []
  | .del _ => []

/-- `addToProtocol` (`environment.py:84-86`): a key of the dictionary keeps its place. -/
def addKey (l : List Nat) (d : Nat) : List Nat := if d ∈ l then l else l ++ [d]

/-- `d._paramUpdated = True`: the dissipator and the free evolutions it was added to (`environment.py:86`).
Simplification: objects bound to a free evolution are left out. -/
def markDiss (st : JSt F D O M J) (d : Nat) : JSt F D O M J :=
  { st with ham := { st.ham with flag := Function.update st.ham.flag d true, feFlag := fun s => st.ham.feFlag s || decide (d ∈ st.protos s) } }

/-- `d.jOperMatrix = None` (`environment.py:104-109`); no system: AttributeError; a matrix of the same shape is there: ValueError. -/
def refresh (A : JAlg F D O M J) (st : JSt F D O M J) (d : Nat) : Option (JSt F D O M J) :=
  match st.sysOf d, st.jop d with
  | some s, some j =>
    let m := A.jump (st.ham.dims s) j
    if (st.ham.mat d).any fun m0 => A.shapeM m0 == A.shapeM m then none
    else
      let st := markDiss { st with ham := { st.ham with mat := Function.update st.ham.mat d (some m) } } d
      some { st with ham := { st.ham with flag := Function.update st.ham.flag d false } }
  | _, _ => none

variable [DecidableEq F] [DecidableEq O]

/-- One operation; `none` is an exception. `system`: `environment.py:39-48, 79-86`; `jOper`: `environment.py:111-115`. -/
def jstep (A : JAlg F D O M J) (c : JCfg) (st : JSt F D O M J) : JOp F D O J → Option (JSt F D O M J)
  | .ham op => if (objs op).any c.isDiss then none else (step A.toAlg c.ham st.ham op).map fun h => { st with ham := h }
  | .system d s =>
    if c.isDiss d && !c.isDiss s && !c.ham.isTerm s then
      some { st with
        sysOf := Function.update st.sysOf d (some s)
        ham := { st.ham with bound := Function.update st.ham.bound s (addKey (st.ham.bound s) d) }
        protos := Function.update st.protos s (addKey (st.protos s) d) }
    else none
  | .addTo d s =>
    if c.isDiss d && !c.isDiss s && !c.ham.isTerm s then some { st with protos := Function.update st.protos s (addKey (st.protos s) d) }
    else none
  | .jOper d j =>
    if !c.isDiss d then none
    else if (st.jop d).any fun j0 => A.shapeJ j0 == A.shapeJ j then none
    else refresh A (markDiss { st with jop := Function.update st.jop d (some j) } d) d
  | .refresh d => if c.isDiss d then refresh A st d else none

/-- The collapse operators of the free evolution of a system (`QPro.py:196, 210`); `none`: one of them is `None`, and asking for its shape
raises AttributeError (`evolution.py:150`). -/
def collapse (st : JSt F D O M J) (s : Nat) : Option (List M) := (st.protos s).mapM st.ham.mat

/-! ## Specification -/

/-- Positions change only in the structure concerned (`Verif.Tree`). -/
def Confined (st : St F D O M) : Op F D O → Prop
  | .dimension q d => ∀ y, d y ≠ st.dims y → Linked st.sub q y
  | .addSub s x d => ∀ y, d y ≠ st.dims y → Linked (Function.update st.sub s (if x ∈ st.sub s then st.sub s else st.sub s ++ [x])) s y
  | .removeSub _ x _ d => ∀ y, d y ≠ st.dims y → Linked st.sub x y
  | _ => True

/-- Positions are confined, and a dissipator gets its system once. -/
def JCareful (st : JSt F D O M J) : JOp F D O J → Prop
  | .ham op => Confined st.ham op
  | .system d _ => st.sysOf d = none
  | _ => True

/-- `JRuns A c st ops st'`: the operations lead from `st` to `st'` without an exception. -/
inductive JRuns (A : JAlg F D O M J) (c : JCfg) : JSt F D O M J → List (JOp F D O J) → JSt F D O M J → Prop
  | nil (st : JSt F D O M J) : JRuns A c st [] st
  | cons {st st1 st2 : JSt F D O M J} {op : JOp F D O J} {ops : List (JOp F D O J)} (hc : JCareful st op) (h1 : jstep A c st op = some st1)
      (h2 : JRuns A c st1 ops st2) : JRuns A c st (op :: ops) st2

/-- The operation deletes matrices starting from a system linked with `s`. -/
def Deletes (st : St F D O M) (s : Nat) : Op F D O → Prop
  | .dimension q _ => Linked st.sub q s
  | .addSub q x _ => Linked (Function.update st.sub q (if x ∈ st.sub q then st.sub q else st.sub q ++ [x])) q s
  | .removeSub _ x _ _ => Linked st.sub x s
  | .removeTerm q _ _ => Linked st.sub q s
  | .del q => Linked st.sub q s
  | _ => False

end Verif.Env.Jump
