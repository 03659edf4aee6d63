import Verif.Sweep.Model
import Mathlib.Data.List.Forall2
import Mathlib.Algebra.BigOperators.Group.List.Basic

/-! Specification vocabulary for the sweep properties (independent of the model's loops). -/
namespace Verif.Sweep

/-- All index tuples below the given lengths, in the order of nested `for` loops (last index fastest). -/
def tuples : List Nat → List (List Nat)
  | [] => [[]]
  | n :: ns => (List.range n).flatMap (fun i => (tuples ns).map (fun t => i :: t))

/-- `t` is an index tuple for axes with lengths `L`. -/
def ValidIdx (L t : List Nat) : Prop := List.Forall₂ (· < ·) t L

/-- The lengths of the axes opened by the sweeps, in creation order: the first sweep and every later combinatorial one. -/
def axes {α : Type} : List (SweepObj α) → List Nat
  | [] => []
  | s :: ss => s.values.length :: (ss.filter (·.comb)).map (·.values.length)

/-- The axis used by sweep number `j`: how many combinatorial sweeps there are among sweeps `1..j` (the first sweep opens
axis 0 whatever its flag says). -/
def axisOf {α : Type} (sweeps : List (SweepObj α)) (j : Nat) : Nat :=
  ((sweeps.take (j + 1)).drop 1).countP (·.comb)

/-- In the run belonging to index tuple `t`, sweep `j` delivers its own value at position `t[axisOf j]`. -/
def Delivers {α : Type} (sweeps : List (SweepObj α)) (t : List Nat) (vals : List α) : Prop :=
  vals.length = sweeps.length ∧
  ∀ j s, sweeps[j]? = some s → ∃ i, t[axisOf sweeps j]? = some i ∧ vals[j]? = s.values[i]? ∧ i < s.values.length

/-- Every sweep list is at least as long as the axis it runs on (documented requirement for simultaneous sweeps:
same length). -/
def LongEnough {α : Type} (sweeps : List (SweepObj α)) : Prop :=
  ∀ j s, sweeps[j]? = some s → ∀ n, (axes sweeps)[axisOf sweeps j]? = some n → n ≤ s.values.length

/-- `v[i_1][i_2]...[i_k]` on nested Python lists. -/
def nestedGet {α : Type} : PyVal α → List Nat → Option (PyVal α)
  | v, [] => some v
  | .atom _, _ :: _ => none
  | .list l, i :: is =>
    match l[i]? with
    | none => none
    | some v => nestedGet v is

/-- How a stored object appears in the results: a one-element list as its element, everything else unchanged. -/
def Shown {β : Type} (stored shown : PyVal β) : Prop :=
  (∀ x, stored = .list [x] → shown = x) ∧ ((∀ x, stored ≠ .list [x]) → shown = stored)

end Verif.Sweep
