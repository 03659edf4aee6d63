import Verif.Toolbox.Spin
import Verif.Toolbox.EvolutionProps
import Mathlib.Analysis.Normed.Algebra.MatrixExponential
import Mathlib.Analysis.SpecialFunctions.Exponential
import Mathlib.Analysis.SpecialFunctions.Trigonometric.Basic

/-!
# C43: bosonic operators in a truncated space of any dimension
-/
namespace Verif.Toolbox
open Matrix

theorem destroy_eq (d : ℕ) : destroy d = sup d fun i => ((Real.sqrt ((i : ℝ) + 1) : ℝ) : ℂ) := by
  rw [destroy, cscMatrix_sup]
theorem create_eq (d : ℕ) : create d = sub d fun i => ((Real.sqrt ((i : ℝ) + 1) : ℝ) : ℂ) := by
  rw [create, cscMatrix_sub]
theorem number_eq (d : ℕ) : number d = diag d fun i => (i : ℂ) := by
  rw [number, cscMatrix_diag]

theorem sqrt_succ_sq (i : ℕ) :
    ((Real.sqrt ((i : ℝ) + 1) : ℝ) : ℂ) * ((Real.sqrt ((i : ℝ) + 1) : ℝ) : ℂ) = (i : ℂ) + 1 := by
  rw [sqrt_mul_self_ofReal (by positivity)]; push_cast; ring

/-- **C43.** `create` is the Hermitian conjugate of `destroy`. -/
theorem C43_adjoint (d : ℕ) : create d = hc (destroy d) ∧ create d = (destroy d)ᴴ := by
  have : create d = hc (destroy d) := by
    rw [destroy_eq, create_eq, hc_sup]; congr 1; funext i; simp
  exact ⟨this, by rw [this, hc_eq]⟩

/-- **C43.** `create @ destroy = number`, which has `0, 1, ..., d-1` on the diagonal. -/
theorem C43_number (d : ℕ) :
    create d * destroy d = number d ∧ number d = Matrix.diagonal (fun i : Fin d => ((i : ℕ) : ℂ)) := by
  refine ⟨?_, by rw [number_eq, diag_eq_diagonal]⟩
  rw [destroy_eq, create_eq, number_eq, sub_mul_sup]
  apply diag_congr
  intro i _
  split_ifs with h
  · simp [h]
  · rw [sqrt_succ_sq]
    obtain ⟨k, rfl⟩ : ∃ k, i = k + 1 := ⟨i - 1, by omega⟩
    simp

/-- **C43.** The commutator is the identity except for the last diagonal entry, which is `1 - d`. -/
theorem C43_commutator (d : ℕ) (i j : Fin d) :
    (destroy d * create d - create d * destroy d) i j =
      if i = j then (if (i : ℕ) + 1 = d then 1 - (d : ℂ) else 1) else 0 := by
  rw [(C43_number d).1, destroy_eq, create_eq, number_eq, sup_mul_sub, diag_sub_diag]
  simp only [diag, Matrix.of_apply, Fin.ext_iff]
  by_cases h : (i : ℕ) = j
  · rw [if_pos h, if_pos h]
    by_cases hi : (i : ℕ) + 1 < d
    · rw [if_pos hi, if_neg (by omega), sqrt_succ_sq]; ring
    · have h1 : (i : ℕ) + 1 = d := by have := i.2; omega
      have h2 : (d : ℂ) = (i : ℕ) + 1 := by exact_mod_cast h1.symm
      rw [if_neg hi, if_pos h1, h2]; ring
  · rw [if_neg h, if_neg h]

theorem mul_basis {d : ℕ} (A : Op d) (n : ℕ) (hn : n < d) (i : Fin d) : (A * basis d n) i 0 = A i ⟨n, hn⟩ := by
  rw [Matrix.mul_apply, Finset.sum_eq_single ⟨n, hn⟩]
  · simp [basis]
  · intro k _ hk
    have : ¬ ((k : ℕ) = n) := fun h => hk (Fin.ext h)
    simp [basis, this]
  · simp

/-- **C43.** `destroy |n> = sqrt(n) |n-1>`, in particular zero on the vacuum. -/
theorem C43_destroy_basis (d n : ℕ) (hn : n < d) :
    destroy d * basis d n = ((Real.sqrt n : ℝ) : ℂ) • basis d (n - 1) := by
  ext i k
  obtain rfl : k = 0 := Subsingleton.elim _ _
  rw [mul_basis _ n hn, destroy_eq]
  simp only [sup, basis, Matrix.of_apply, Matrix.smul_apply, smul_eq_mul]
  rcases n with _ | n
  · simp
  · by_cases h : (i : ℕ) = n
    · simp [h]
    · simp [h]

/-- **C43.** `create |n> = sqrt(n+1) |n+1>` below the truncation, zero on the last level. -/
theorem C43_create_basis (d n : ℕ) (hn : n < d) :
    create d * basis d n = if n + 1 < d then ((Real.sqrt ((n : ℝ) + 1) : ℝ) : ℂ) • basis d (n + 1) else 0 := by
  ext i k
  obtain rfl : k = 0 := Subsingleton.elim _ _
  rw [mul_basis _ n hn, create_eq]
  by_cases h1 : n + 1 < d
  · rw [if_pos h1]
    simp only [sub, basis, Matrix.of_apply, Matrix.smul_apply, smul_eq_mul]
    by_cases h : (i : ℕ) = n + 1
    · simp [h]
    · have : ¬ (n + 1 = (i : ℕ)) := fun h' => h h'.symm
      simp [h, this]
  · rw [if_neg h1]
    have : ¬ (n + 1 = (i : ℕ)) := by have := i.2; omega
    simp [sub, this]

/-- `number |n> = n |n>`. -/
theorem C43_number_basis (d n : ℕ) (hn : n < d) : number d * basis d n = (n : ℂ) • basis d n := by
  ext i k
  obtain rfl : k = 0 := Subsingleton.elim _ _
  rw [mul_basis _ n hn, number_eq]
  simp only [diag, basis, Matrix.of_apply, Matrix.smul_apply, smul_eq_mul]
  by_cases h : (i : ℕ) = n <;> simp [h]

theorem exp_I_pi_nat (n : ℕ) : Complex.exp (Complex.I * Real.pi * n) = if n % 2 = 0 then 1 else -1 := by
  have : Complex.I * Real.pi * n = n * (Real.pi * Complex.I) := by ring
  rw [this, Complex.exp_nat_mul, Complex.exp_pi_mul_I]
  rcases Nat.even_or_odd n with h | h
  · rw [h.neg_one_pow, if_pos (Nat.even_iff.mp h)]
  · rw [h.neg_one_pow, if_neg (by have := Nat.odd_iff.mp h; omega)]

/-- **C43.** `parityEXP(number)` equals `paritySUM`. -/
theorem C43_parity (d : ℕ) : parityEXP (number d) = paritySUM d := by
  rw [parityEXP, paritySUM, cscMatrix_diag, number_eq, smul_diag, diag_eq_diagonal, diag_eq_diagonal, Matrix.exp_diagonal]
  congr 1
  funext i
  rw [Pi.coe_exp, ← Complex.exp_eq_exp_ℂ, exp_I_pi_nat]

/-- `paritySUM` is an involution and anticommutes with the ladder operators. -/
theorem C43_parity_involution (d : ℕ) :
    paritySUM d * paritySUM d = 1 ∧ paritySUM d * destroy d = -(destroy d * paritySUM d) := by
  rw [paritySUM, cscMatrix_diag]
  constructor
  · rw [diag_mul_diag, ← diag_one]
    congr 1; funext i; split_ifs <;> norm_num
  · rw [destroy_eq, diag_mul_sup, sup_mul_diag]
    ext i j
    simp only [sup, Matrix.neg_apply, Matrix.of_apply]
    split_ifs <;> first | omega | simp

theorem exp_mem_unitary {d : ℕ} (A : Op d) (hA : Aᴴ = -A) :
    (NormedSpace.exp A)ᴴ * NormedSpace.exp A = 1 ∧ NormedSpace.exp A * (NormedSpace.exp A)ᴴ = 1 := by
  rw [← Matrix.exp_conjTranspose, hA]
  have h1 : Commute (-A) A := (Commute.refl A).neg_left
  have h2 : Commute A (-A) := (Commute.refl A).neg_right
  rw [← Matrix.exp_add_of_commute _ _ h1, ← Matrix.exp_add_of_commute _ _ h2]
  simp

/-- The displacement and squeezing operators are unitary for every parameter and truncation dimension. -/
theorem C43_displacement_unitary (alpha : ℂ) (d : ℕ) :
    (displacement alpha d)ᴴ * displacement alpha d = 1 ∧ displacement alpha d * (displacement alpha d)ᴴ = 1 := by
  apply exp_mem_unitary
  rw [(C43_adjoint d).2]
  simp [conjTranspose_sub, conjTranspose_smul]

theorem C43_squeeze_unitary (alpha : ℂ) (d : ℕ) :
    (squeeze alpha d)ᴴ * squeeze alpha d = 1 ∧ squeeze alpha d * (squeeze alpha d)ᴴ = 1 := by
  apply exp_mem_unitary
  rw [(C43_adjoint d).2]
  simp only [conjTranspose_add, conjTranspose_smul, conjTranspose_neg, conjTranspose_mul, conjTranspose_conjTranspose]
  have h5 : star (0.5 : ℂ) = 0.5 := by
    rw [show (0.5 : ℂ) = ((0.5 : ℝ) : ℂ) by push_cast; rfl]; exact Complex.conj_ofReal _
  rw [h5, ← smul_neg]
  simp

/-- `D(alpha) D(-alpha) = 1`, `D(0) = 1`. -/
theorem C43_displacement_inverse (alpha : ℂ) (d : ℕ) :
    displacement alpha d * displacement (-alpha) d = 1 ∧ displacement 0 d = 1 := by
  constructor
  · have : (-alpha) • create d - (starRingEnd ℂ) (-alpha) • destroy d =
        -(alpha • create d - (starRingEnd ℂ) alpha • destroy d) := by
      rw [map_neg]; module
    unfold displacement
    rw [this, ← Matrix.exp_add_of_commute _ _ (Commute.refl (alpha • create d - (starRingEnd ℂ) alpha • destroy d)).neg_right]
    simp
  · simp [displacement]

/-- Non-trivial instance: dimension 3. -/
example : destroy 3 * basis 3 2 = ((Real.sqrt 2 : ℝ) : ℂ) • basis 3 1 := by
  have := C43_destroy_basis 3 2 (by norm_num); simpa using this
example : (destroy 3 * create 3 - create 3 * destroy 3) 2 2 = -2 ∧ (destroy 3 * create 3 - create 3 * destroy 3) 1 1 = 1 := by
  constructor <;> rw [C43_commutator] <;> norm_num

end Verif.Toolbox
