import Verif.Toolbox.Evolution
import Verif.Toolbox.Vec
import Mathlib.LinearAlgebra.Matrix.Trace
import Mathlib.LinearAlgebra.Matrix.Hermitian
import Mathlib.Tactic.NoncommRing
import Mathlib.Tactic.Module

/-! Helper lemmas about superoperators. -/
namespace Verif.Toolbox
open Matrix NormedSpace

variable {n : ℕ}

theorem hc_eq {m n : ℕ} (M : Matrix (Fin m) (Fin n) ℂ) : hc M = Mᴴ := rfl

/-- the action of a superoperator on a matrix -/
def act (L : Op (n * n)) (X : Op n) : Op n := vec2Mat (L * mat2Vec X)

theorem mat2Vec_act (L : Op (n * n)) (X : Op n) : mat2Vec (act L X) = L * mat2Vec X := by
  rw [act, C39_mat2Vec_vec2Mat]

theorem vec2Mat_add (v w : Ket (n * n)) : vec2Mat (v + w) = vec2Mat v + vec2Mat w := by
  ext i j; simp [vec2Mat]

theorem vec2Mat_smul (c : ℂ) (v : Ket (n * n)) : vec2Mat (c • v) = c • vec2Mat v := by
  ext i j; simp [vec2Mat]

theorem mat2Vec_add (v w : Op n) : mat2Vec (v + w) = mat2Vec v + mat2Vec w := by
  ext i j; simp [mat2Vec]

theorem mat2Vec_smul (c : ℂ) (v : Op n) : mat2Vec (c • v) = c • mat2Vec v := by
  ext i j; simp [mat2Vec]

theorem act_add (L M : Op (n * n)) (X : Op n) : act (L + M) X = act L X + act M X := by
  rw [act, Matrix.add_mul, vec2Mat_add]; rfl

theorem act_smul (c : ℂ) (L : Op (n * n)) (X : Op n) : act (c • L) X = c • act L X := by
  rw [act, Matrix.smul_mul, vec2Mat_smul]; rfl

theorem act_sub (L M : Op (n * n)) (X : Op n) : act (L - M) X = act L X - act M X := by
  rw [sub_eq_add_neg, sub_eq_add_neg, act_add, ← neg_one_smul ℂ M, act_smul, neg_one_smul]

theorem act_zero (X : Op n) : act 0 X = 0 := by
  rw [act, Matrix.zero_mul]; ext i j; simp [vec2Mat]

theorem act_pre (A X : Op n) : act (preSO A) X = A * X := by rw [act, C39_preSO, C39_vec2Mat_mat2Vec]
theorem act_post (A X : Op n) : act (postSO A) X = X * A := by rw [act, C39_postSO, C39_vec2Mat_mat2Vec]
theorem act_prepost (A B X : Op n) : act (prepostSO A (some B)) X = A * X * B := by
  rw [act, C39_prepostSO, C39_vec2Mat_mat2Vec]

/-- two superoperators with the same action are equal -/
theorem act_injective {L M : Op (n * n)} (h : ∀ X, act L X = act M X) : L = M := by
  have : ∀ v : Ket (n * n), L * v = M * v := by
    intro v
    have := h (vec2Mat v)
    have h2 := congrArg mat2Vec this
    rw [mat2Vec_act, mat2Vec_act, C39_mat2Vec_vec2Mat] at h2
    exact h2
  ext i j
  have h1 := congrFun (congrFun (this (Matrix.of fun k _ => if k = j then 1 else 0)) i) 0
  simpa [Matrix.mul_apply] using h1

theorem act_hamPart (H X : Op n) : act (hamPart (some H)) X = (-Complex.I) • (H * X - X * H) := by
  rw [hamPart, zero_add, act_smul, act_sub, act_pre, act_post]

theorem act_dissipator (A X : Op n) (double : Bool) :
    act (dissipator A none double) X = (1 + (if double then 1 else 0) : ℂ) •
      (A * X * Aᴴ - (1 / 2 : ℂ) • (Aᴴ * A * X + X * (Aᴴ * A))) := by
  simp only [dissipator, Option.getD_none, act_smul, act_sub, act_prepost, act_add, act_pre, act_post, hc_eq]

end Verif.Toolbox
