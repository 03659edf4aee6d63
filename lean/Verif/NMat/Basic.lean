import Mathlib.Data.Complex.Basic
import Mathlib.Algebra.BigOperators.Intervals
import Mathlib.Algebra.BigOperators.Ring.Finset
import Mathlib.Algebra.BigOperators.Group.List.Basic
import Mathlib.Data.Nat.ModEq
import Mathlib.Algebra.Order.Ring.Nat
import Mathlib.Tactic.Ring

/-!
# Matrices with run-time sizes

Python matrices carry their shape at run time; functions such as `tensorProd(*args)` take any number of matrices of
arbitrary shapes.  `Mat` is a matrix with its shape as data; entries are a function of the two indices and only the entries
inside the shape count (`Same`).
-/
namespace Verif.NMat

/-- A matrix with run-time shape. Model of a NumPy array / SciPy sparse matrix over `ℂ` (no rounding). -/
structure Mat where
  rows  : ℕ
  cols  : ℕ
  entry : ℕ → ℕ → ℂ

/-- Same shape and same entries inside the shape. -/
def Same (A B : Mat) : Prop :=
  A.rows = B.rows ∧ A.cols = B.cols ∧ ∀ i < A.rows, ∀ j < A.cols, A.entry i j = B.entry i j

theorem Same.refl (A : Mat) : Same A A := ⟨rfl, rfl, fun _ _ _ _ => rfl⟩
theorem Same.symm {A B : Mat} (h : Same A B) : Same B A :=
  ⟨h.1.symm, h.2.1.symm, fun i hi j hj => (h.2.2 i (h.1 ▸ hi) j (h.2.1 ▸ hj)).symm⟩
theorem Same.trans {A B C : Mat} (h : Same A B) (k : Same B C) : Same A C :=
  ⟨h.1.trans k.1, h.2.1.trans k.2.1, fun i hi j hj =>
    (h.2.2 i hi j hj).trans (k.2.2 i (h.1 ▸ hi) j (h.2.1 ▸ hj))⟩

/-- `sp.kron(A, B)`: entry `(i, j)` is `A[i // p, j // q] * B[i % p, j % q]`. -/
def kron (A B : Mat) : Mat where
  rows := A.rows * B.rows
  cols := A.cols * B.cols
  entry i j := A.entry (i / B.rows) (j / B.cols) * B.entry (i % B.rows) (j % B.cols)

/-- `sp.identity(n)` / `np.identity(n)` (`operators.py:200-229`). -/
def ident (n : ℕ) : Mat := ⟨n, n, fun i j => if i = j then 1 else 0⟩

/-- `A @ B`; the caller guarantees `A.cols = B.rows`. -/
def mul (A B : Mat) : Mat := ⟨A.rows, B.cols, fun i j => ∑ k ∈ Finset.range A.cols, A.entry i k * B.entry k j⟩

/-- `A + B`. -/
def add (A B : Mat) : Mat := ⟨A.rows, A.cols, fun i j => A.entry i j + B.entry i j⟩

/-- `c * A`. -/
def smul (c : ℂ) (A : Mat) : Mat := ⟨A.rows, A.cols, fun i j => c * A.entry i j⟩

/-- The zero matrix of a shape (`states.py:209-234`). -/
def zeros (m n : ℕ) : Mat := ⟨m, n, fun _ _ => 0⟩

/-- `hc` (`linearAlgebra.py:47-86`): `matrix.T.conj()`. -/
def hc (A : Mat) : Mat := ⟨A.cols, A.rows, fun i j => (starRingEnd ℂ) (A.entry j i)⟩

/-- `trace` (`linearAlgebra.py:279-307`): `matrix.diagonal().sum()` (the diagonal of an `m x n` matrix has `min m n`
entries). -/
def trace (A : Mat) : ℂ := ∑ k ∈ Finset.range (min A.rows A.cols), A.entry k k

/-- `innerProd` (`linearAlgebra.py:88-132`): `(hc(ket2) @ ket1).diagonal().sum()`, `ket2` defaults to `ket1`. -/
def innerProd (ket1 : Mat) (ket2 : Option Mat := none) : ℂ := trace (mul (hc (ket2.getD ket1)) ket1)

/-- An argument of `tensorProd`: an `int` or a matrix. -/
inductive Arg where
  | int (n : ℕ)
  | mat (A : Mat)

/-- `tensorProd` (`linearAlgebra.py:221-277`): the first argument, when an `int`, is replaced by an identity; with more
arguments `kron(first, tensorProd(*rest))`.  No argument raises IndexError (`none`). -/
def tensorProd : List Arg → Option Mat
  | [] => none
  | a :: rest =>
    let totalProd := match a with
      | .int n => ident n
      | .mat A => A
    if rest.length > 0 then
      match tensorProd rest with
      | none => none
      | some B => some (kron totalProd B)
    else some totalProd

/-- `compositeOp` (`operators.py:928-966`): `tensorProd(*[a for a in [dimB, operator, dimA] if not int or a > 1])`. -/
def compositeOp (operator : Mat) (dimB dimA : ℕ) : Option Mat :=
  tensorProd ([Arg.int dimB, .mat operator, .int dimA].filter fun a =>
    match a with
    | .int n => decide (n > 1)
    | .mat _ => true)

end Verif.NMat
