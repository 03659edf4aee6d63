import Verif.NMat.Props
import Mathlib.Data.List.Dedup

/-!
# Model of `partialTrace` (`linearAlgebra.py:309-365`)
-/
namespace Verif.PTrace
open Verif.NMat

/-- Flat C-order position of a multi-index in an array of the given shape (`ndarray.reshape`). -/
def ravel : List ℕ → List ℕ → ℕ
  | _ :: ds, i :: is => i * ds.prod + ravel ds is
  | _, _ => 0

/-- An environment: a value for every einsum label. -/
abbrev Env := ℕ → ℕ

/-- Sum over all values of the given labels. -/
def sumLabels (dim : ℕ → ℕ) : List ℕ → (Env → ℂ) → Env → ℂ
  | [], F, σ => F σ
  | l :: ls, F, σ => ∑ v ∈ Finset.range (dim l), sumLabels dim ls F (Function.update σ l v)

/-- Labels of the output of `np.einsum(operand, labels)` in implicit mode: those that appear exactly once, sorted. -/
def outLabels (labels : List ℕ) : List ℕ := (labels.filter fun l => labels.count l = 1).mergeSort (fun a b => decide (a ≤ b))

/-- Labels that are summed over: those appearing more than once. -/
def repLabels (labels : List ℕ) : List ℕ := (labels.filter fun l => 1 < labels.count l).dedup

/-- The size belonging to a label: the size of the axis where it first appears. -/
def labelDim (shape labels : List ℕ) (l : ℕ) : ℕ := shape.getD (labels.idxOf l) 0

/-- `np.einsum(operand, labels, optimize=False)` without output labels; `operand` as a function of its multi-index. Returns
the shape of the output and its entries. -/
def einsum (operand : List ℕ → ℂ) (shape labels : List ℕ) : List ℕ × (List ℕ → ℂ) :=
  let out := outLabels labels
  let dim := labelDim shape labels
  (out.map dim, fun idx =>
    sumLabels dim (repLabels labels) (fun σ => operand (labels.map σ)) (fun l => idx.getD (out.idxOf l) 0))

/-- `dims[k]` with Python's negative indices; `none` is IndexError. -/
def pyGet (dims : List ℕ) (k : ℤ) : Option ℕ :=
  if 0 ≤ k then dims[k.toNat]? else if -k ≤ dims.length then dims[(dims.length - k.natAbs)]? else none

/-- `partialTrace(keep, dims, state)` (`linearAlgebra.py:309-365`).  A ket is first turned into a density matrix (line
349-350), `dims[keep]` raises for indices out of range and for an empty `keep` (an empty float array is no index), `reshape`
raises when the sizes do not match. -/
def partialTrace (keep : List ℤ) (dims : List ℕ) (state : Mat) : Option Mat :=
  let rho := if state.rows ≠ state.cols then mul state (hc state) else state
  let nDim := dims.length
  if keep = [] then none else
  match keep.mapM (pyGet dims) with
  | none => none
  | some kd =>
    let nKeep := kd.prod
    let idx1 := List.range nDim
    let idx2 : List ℕ := (List.range nDim).map fun i : ℕ => if (i : ℤ) ∈ keep then nDim + i else i
    let shape := dims ++ dims
    if rho.rows * rho.cols ≠ shape.prod then none else
    let rhoA := fun idx : List ℕ =>
      let flat := ravel shape idx
      rho.entry (flat / rho.cols) (flat % rho.cols)
    let res := einsum rhoA shape (idx1 ++ idx2)
    if res.1.prod ≠ nKeep * nKeep then none else
    some ⟨nKeep, nKeep, fun r c => res.2 (digits res.1 (r * nKeep + c))⟩

end Verif.PTrace
