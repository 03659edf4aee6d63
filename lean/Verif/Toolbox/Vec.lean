import Verif.Toolbox.Basic
import Mathlib.Tactic.Linarith
import Mathlib.Tactic.Ring
import Mathlib.Tactic.NormNum

/-!
# Property C39: vectorisation and superoperators
-/
namespace Verif.Toolbox
open Matrix

/-- **C39.** `vec2Mat` undoes `mat2Vec`. -/
theorem C39_vec2Mat_mat2Vec {n : ℕ} (M : Op n) : vec2Mat (mat2Vec M) = M := by
  ext i j
  simp only [vec2Mat, mat2Vec, Matrix.of_apply, Matrix.transpose_apply, Equiv.symm_apply_apply]

/-- **C39.** `mat2Vec` undoes `vec2Mat`. -/
theorem C39_mat2Vec_vec2Mat {n : ℕ} (v : Ket (n * n)) : mat2Vec (vec2Mat v) = v := by
  ext k l
  have : l = 0 := Subsingleton.elim _ _
  subst this
  simp only [vec2Mat, mat2Vec, Matrix.of_apply, Matrix.transpose_apply, Prod.mk.eta, Equiv.apply_symm_apply]

/-- Column stacking: entry `(i, j)` sits at position `i + n*j`. -/
theorem C39_column_stacking {n : ℕ} (M : Op n) (i j : Fin n) :
    mat2Vec M ⟨i + n * j, by nlinarith [i.2, j.2]⟩ 0 = M i j := by
  have : (⟨i + n * j, by nlinarith [i.2, j.2]⟩ : Fin (n * n)) = finProdFinEquiv (j, i) := by
    ext; simp [finProdFinEquiv]
  simp only [mat2Vec, Matrix.of_apply, this, Equiv.symm_apply_apply, Matrix.transpose_apply]

/-- The basic identity of vectorisation: `(Bᵀ ⊗ A) vec(X) = vec(A X B)`. -/
theorem C39_kron_mul_vec {n : ℕ} (A B X : Op n) : kron Bᵀ A * mat2Vec X = mat2Vec (A * X * B) := by
  ext k l
  simp only [Matrix.mul_apply, kron, mat2Vec, Matrix.of_apply, Matrix.transpose_apply]
  rw [← Equiv.sum_comp finProdFinEquiv]
  simp only [Equiv.symm_apply_apply]
  rw [Fintype.sum_prod_type]
  refine Finset.sum_congr rfl fun j _ => ?_
  rw [Finset.sum_mul]
  refine Finset.sum_congr rfl fun i _ => ?_
  ring

/-- **C39.** The pre superoperator multiplies from the left. -/
theorem C39_preSO {n : ℕ} (A X : Op n) : preSO A * mat2Vec X = mat2Vec (A * X) := by
  have := C39_kron_mul_vec A 1 X
  simpa [preSO] using this

/-- **C39.** The post superoperator multiplies from the right. -/
theorem C39_postSO {n : ℕ} (B X : Op n) : postSO B * mat2Vec X = mat2Vec (X * B) := by
  have := C39_kron_mul_vec 1 B X
  simpa [postSO] using this

/-- **C39.** The pre-post superoperator multiplies from both sides. -/
theorem C39_prepostSO {n : ℕ} (A B X : Op n) : prepostSO A (some B) * mat2Vec X = mat2Vec (A * X * B) :=
  C39_kron_mul_vec A B X

/-- **C39 (negation).** The default second argument is the operator itself, not its Hermitian conjugate as the docstring
`(B†)ᵀ ⊗ A` suggests: `_prepostSO(A)` maps `ρ` to `A ρ A`. -/
theorem C39_prepostSO_default {n : ℕ} (A X : Op n) : prepostSO A * mat2Vec X = mat2Vec (A * X * A) :=
  C39_kron_mul_vec A A X

/-- **C39 (negation, witness).** For `A = i·1` the default pre-post superoperator sends the identity to minus the identity
while `A ρ A†` is the identity: it does not even preserve positivity. -/
theorem C39_prepostSO_default_not_conjugation :
    vec2Mat (prepostSO (Complex.I • (1 : Op 2)) * mat2Vec (1 : Op 2)) ≠
      (Complex.I • (1 : Op 2)) * 1 * hc (Complex.I • (1 : Op 2)) := by
  rw [C39_prepostSO_default, C39_vec2Mat_mat2Vec]
  intro h
  have h00 := congrFun (congrFun h 0) 0
  simp [hc, Matrix.mul_apply, Fin.sum_univ_two] at h00
  norm_num at h00

/-- The statements are not about the zero matrix only: a concrete matrix and its vectorised form. -/
example : mat2Vec (!![1, 2; 3, 4] : Op 2) ⟨1, by norm_num⟩ 0 = 3 ∧ mat2Vec (!![1, 2; 3, 4] : Op 2) ⟨2, by norm_num⟩ 0 = 2 := by
  have h1 := C39_column_stacking (!![1, 2; 3, 4] : Op 2) 1 0
  have h2 := C39_column_stacking (!![1, 2; 3, 4] : Op 2) 0 1
  exact ⟨by simpa using h1, by simpa using h2⟩

end Verif.Toolbox
