import Mathlib.Data.Matrix.Basic
import Mathlib.Data.Complex.Basic
import Mathlib.LinearAlgebra.Matrix.Kronecker
import Mathlib.Logic.Equiv.Fin.Basic
import Mathlib.LinearAlgebra.Matrix.ConjTranspose

/-!
# Model of the linear-algebra primitives of the toolbox

Source: `/repo/src/quanguru/QuantumToolbox/linearAlgebra.py`, `states.py`, `evolution.py`.
Matrices are Mathlib matrices over `ℂ` with `Fin` indices (no rounding, no sparse/dense distinction).
-/
namespace Verif.Toolbox
open Matrix Kronecker

/-- Operators on a `n`-dimensional space. -/
abbrev Op (n : ℕ) := Matrix (Fin n) (Fin n) ℂ
/-- Column vectors (kets), shape `(n, 1)`. -/
abbrev Ket (n : ℕ) := Matrix (Fin n) (Fin 1) ℂ

/-- `hc` (`linearAlgebra.py:47-86`): `matrix.T.conj()`. -/
def hc {m n : ℕ} (M : Matrix (Fin m) (Fin n) ℂ) : Matrix (Fin n) (Fin m) ℂ := (Mᵀ).map (starRingEnd ℂ)

/-- `sp.kron(A, B)` for two matrices (used in `tensorProd`, `linearAlgebra.py:221-277`, and in the superoperators,
`evolution.py:278-375`): entry `(i*p + k, j*q + l)` is `A[i,j]*B[k,l]` (row-major block structure; `finProdFinEquiv` maps
`(i, k)` to `k + p*i`). -/
def kron {m n p q : ℕ} (A : Matrix (Fin m) (Fin n) ℂ) (B : Matrix (Fin p) (Fin q) ℂ) :
    Matrix (Fin (m * p)) (Fin (n * q)) ℂ :=
  Matrix.of fun a b =>
    A (finProdFinEquiv.symm a).1 (finProdFinEquiv.symm b).1 * B (finProdFinEquiv.symm a).2 (finProdFinEquiv.symm b).2

/-- `mat2Vec` (`states.py:519-545`): `denMat.T.reshape(prod(shape), 1)`; NumPy's `reshape` is row-major. -/
def mat2Vec {n : ℕ} (M : Op n) : Ket (n * n) :=
  Matrix.of fun k _ => Mᵀ (finProdFinEquiv.symm k).1 (finProdFinEquiv.symm k).2

/-- `vec2Mat` (`states.py:547-579`): `vec.reshape((n, n)).T` with `n = int(sqrt(len))`.  Simplification: the length is `n*n`
by type, `int(np.sqrt(n*n)) = n` is taken to be exact. -/
def vec2Mat {n : ℕ} (v : Ket (n * n)) : Op n :=
  (Matrix.of fun i j => v (finProdFinEquiv (i, j)) 0)ᵀ

/-- `_preSO` (`evolution.py:278-309`): `kron(identity, operator)`. -/
def preSO {n : ℕ} (A : Op n) : Op (n * n) := kron (1 : Op n) A

/-- `_postSO` (`evolution.py:311-342`): `kron(operator.T, identity)`. -/
def postSO {n : ℕ} (A : Op n) : Op (n * n) := kron Aᵀ (1 : Op n)

/-- `_prepostSO` (`evolution.py:344-375`): `kron(operatorB.T, operatorA)`, `operatorB = operatorA` when it is `None`. -/
def prepostSO {n : ℕ} (A : Op n) (B : Option (Op n) := none) : Op (n * n) := kron (B.getD A)ᵀ A

end Verif.Toolbox
