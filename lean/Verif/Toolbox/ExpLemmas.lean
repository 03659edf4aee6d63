import Verif.Toolbox.Basic
import Mathlib.Analysis.Normed.Algebra.MatrixExponential
import Mathlib.Analysis.Complex.Basic

/-! Helper lemmas about the matrix exponential. -/
namespace Verif.Toolbox
open Matrix NormedSpace

theorem hasSum_exp {m : Type*} [Fintype m] [DecidableEq m] (A : Matrix m m ℂ) :
    HasSum (fun n : ℕ => ((n.factorial : ℂ)⁻¹) • A ^ n) (exp A) := by
  open scoped Matrix.Norms.Operator in exact exp_series_hasSum_exp' (𝕂 := ℂ) A

/-- If `X A = B X` then `X exp(A) = exp(B) X` (rectangular `X`). -/
theorem mul_exp_of_intertwine {m n : Type*} [Fintype m] [DecidableEq m] [Fintype n] [DecidableEq n]
    (X : Matrix m n ℂ) (A : Matrix n n ℂ) (B : Matrix m m ℂ) (h : X * A = B * X) : X * exp A = exp B * X := by
  have hp : ∀ k : ℕ, X * A ^ k = B ^ k * X := by
    intro k
    induction k with
    | zero => simp
    | succ k ih => rw [pow_succ, ← Matrix.mul_assoc, ih, Matrix.mul_assoc, h, ← Matrix.mul_assoc, ← pow_succ]
  have h1 : HasSum (fun k : ℕ => X * (((k.factorial : ℂ)⁻¹) • A ^ k)) (X * exp A) :=
    (hasSum_exp A).map (AddMonoidHom.mk' (fun Y => X * Y) (fun a b => Matrix.mul_add X a b))
      (continuous_const.matrix_mul continuous_id)
  have h2 : HasSum (fun k : ℕ => (((k.factorial : ℂ)⁻¹) • B ^ k) * X) (exp B * X) :=
    (hasSum_exp B).map (AddMonoidHom.mk' (fun Y => Y * X) (fun a b => Matrix.add_mul a b X))
      (continuous_id.matrix_mul continuous_const)
  have : (fun k : ℕ => X * (((k.factorial : ℂ)⁻¹) • A ^ k)) = fun k : ℕ => (((k.factorial : ℂ)⁻¹) • B ^ k) * X := by
    funext k
    rw [Matrix.mul_smul, hp, Matrix.smul_mul]
  rw [this] at h1
  exact h1.unique h2

end Verif.Toolbox
