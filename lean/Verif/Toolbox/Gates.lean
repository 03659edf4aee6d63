import Verif.Toolbox.Concurrence
import Mathlib.Analysis.SpecialFunctions.Complex.Circle

/-!
# C61: `basicGates.py`
-/
namespace Verif.Toolbox.Gates
open Matrix Verif.Toolbox

/-! ## Model -/

/-- `sp.csc_matrix((data, (rows, columns)), shape=(d, d))`: the entries at one position are added up. -/
def coo (d : ℕ) (data : List ℂ) (rows columns : List ℕ) : Op d :=
  Matrix.of fun i j => ((data.zip (rows.zip columns)).map fun e => if e.2.1 = (i : ℕ) ∧ e.2.2 = (j : ℕ) then e.1 else 0).sum

/-- `CNOT` (`basicGates.py:25-30`). The sparse/dense flag is not modelled. -/
def CNOT : Op 4 := coo 4 [1, 1, 1, 1] [0, 1, 2, 3] [0, 1, 3, 2]

/-- `CPHASE` (`basicGates.py:32-37`). -/
noncomputable def CPHASE (phase : ℝ) : Op 4 := coo 4 [1, 1, 1, Complex.exp (Complex.I * phase)] [0, 1, 2, 3] [0, 1, 2, 3]

/-- `Hadamard` (`basicGates.py:39-44`). -/
noncomputable def Hadamard : Op 2 :=
  let s : ℂ := ((Real.sqrt 2 : ℝ) : ℂ)
  coo 2 [1 / s, 1 / s, 1 / s, -1 / s] [0, 0, 1, 1] [0, 1, 0, 1]

/-! ## The matrices -/

theorem CNOT_eq : CNOT = !![1, 0, 0, 0; 0, 1, 0, 0; 0, 0, 0, 1; 0, 0, 1, 0] := by
  ext i j
  fin_cases i <;> fin_cases j <;> simp [CNOT, coo]

theorem CPHASE_eq (phase : ℝ) : CPHASE phase = diagonal ![1, 1, 1, Complex.exp (Complex.I * phase)] := by
  ext i j
  fin_cases i <;> fin_cases j <;> simp [CPHASE, coo]

theorem Hadamard_eq : Hadamard = (1 / ((Real.sqrt 2 : ℝ) : ℂ)) • !![1, 1; 1, -1] := by
  ext i j
  fin_cases i <;> fin_cases j <;> simp [Hadamard, coo]
  ring

theorem sqrt2_sq : ((Real.sqrt 2 : ℝ) : ℂ) * ((Real.sqrt 2 : ℝ) : ℂ) = 2 := by
  rw [← Complex.ofReal_mul, Real.mul_self_sqrt (by norm_num)]; simp

theorem inv_sqrt2_sq : (1 / ((Real.sqrt 2 : ℝ) : ℂ)) * (1 / ((Real.sqrt 2 : ℝ) : ℂ)) = 1 / 2 := by
  rw [div_mul_div_comm, sqrt2_sq, one_mul]

/-- The two-qubit basis ket `|a b>`. -/
noncomputable def ket2 (a b : Fin 2) : Ket 4 := (kron (basis 2 a) (basis 2 b) : Matrix (Fin (2 * 2)) (Fin (1 * 1)) ℂ)

theorem ket2_eq (a b : Fin 2) : ket2 a b = basis 4 (2 * a + b) := by
  have e : ∀ x : Fin (2 * 2), ∀ y : Fin (1 * 1), (kron (basis 2 a) (basis 2 b) : Matrix (Fin (2 * 2)) (Fin (1 * 1)) ℂ) x y =
      (if ((finProdFinEquiv.symm x).1 : ℕ) = a then 1 else 0) * (if ((finProdFinEquiv.symm x).2 : ℕ) = b then 1 else 0) := fun x y => rfl
  ext x y
  have hx : ket2 a b x y = (if x.val / 2 = a then 1 else 0) * (if x.val % 2 = b then 1 else 0) := e x y
  rw [hx]
  simp only [basis, Matrix.of_apply]
  have : ((x : ℕ) = 2 * a + b) ↔ (x.val / 2 = a ∧ x.val % 2 = b) := by
    have := b.isLt
    constructor
    · intro h; omega
    · rintro ⟨h1, h2⟩; omega
  by_cases h1 : x.val / 2 = a <;> by_cases h2 : x.val % 2 = b <;> simp [this, h1, h2]

/-! ## Theorems -/

/-- **C61 (truth table).** CNOT flips the second qubit exactly if the first one is excited. -/
theorem C61_cnot (a b : Fin 2) : CNOT * ket2 a b = ket2 a (a + b) := by
  rw [ket2_eq, ket2_eq, CNOT_eq]
  ext x y
  fin_cases a <;> fin_cases b <;> fin_cases x <;> simp [basis, Matrix.mul_apply, Fin.sum_univ_four]

/-- **C61 (truth table).** CPHASE multiplies `|11>` by the phase and leaves the other basis kets alone. -/
theorem C61_cphase (phase : ℝ) (a b : Fin 2) :
    CPHASE phase * ket2 a b = Complex.exp (Complex.I * phase * (a : ℕ) * (b : ℕ)) • ket2 a b := by
  rw [ket2_eq, CPHASE_eq]
  ext x y
  rw [Matrix.diagonal_mul, Matrix.smul_apply]
  fin_cases a <;> fin_cases b <;> fin_cases x <;> simp [basis]

/-- **C61 (unitary).** All gates are unitary, CNOT and Hadamard are their own inverses. -/
theorem C61_unitary (phase : ℝ) : hc CNOT * CNOT = 1 ∧ hc (CPHASE phase) * CPHASE phase = 1 ∧ hc Hadamard * Hadamard = 1 ∧
    CNOT * CNOT = 1 ∧ Hadamard * Hadamard = 1 := by
  have hh : Hadamard * Hadamard = 1 := by
    rw [Hadamard_eq, Matrix.smul_mul, Matrix.mul_smul, smul_smul, inv_sqrt2_sq]
    ext i j
    fin_cases i <;> fin_cases j <;> simp [Matrix.mul_apply, Fin.sum_univ_two] <;> norm_num
  have hhc : hc Hadamard = Hadamard := by
    rw [Hadamard_eq]
    ext i j
    fin_cases i <;> fin_cases j <;> simp [hc]
  have hcc : CNOT * CNOT = 1 := by
    rw [CNOT_eq]
    ext i j
    fin_cases i <;> fin_cases j <;> simp [Matrix.mul_apply, Fin.sum_univ_four]
  have hcn : hc CNOT = CNOT := by
    rw [CNOT_eq]
    ext i j
    fin_cases i <;> fin_cases j <;> simp [hc]
  refine ⟨by rw [hcn, hcc], ?_, by rw [hhc, hh], hcc, hh⟩
  rw [CPHASE_eq]
  have e : (starRingEnd ℂ) (Complex.exp (Complex.I * phase)) * Complex.exp (Complex.I * phase) = 1 := by
    rw [← Complex.exp_conj, ← Complex.exp_add]
    simp
  ext i j
  fin_cases i <;> fin_cases j <;> simp [hc, Matrix.mul_apply, Fin.sum_univ_four, e]

/-- **C61 (phases).** Phases add up. -/
theorem C61_cphase_add (a b : ℝ) : CPHASE a * CPHASE b = CPHASE (a + b) ∧ CPHASE 0 = 1 := by
  constructor
  · rw [CPHASE_eq, CPHASE_eq, CPHASE_eq, diagonal_mul_diagonal]
    congr 1
    funext i
    fin_cases i <;> simp
    rw [← Complex.exp_add]; congr 1; ring
  · rw [CPHASE_eq]
    ext i j
    fin_cases i <;> fin_cases j <;> simp

/-- **C61 (phases).** Two CPHASE gates agree exactly if the phases differ by a multiple of `2 pi`. -/
theorem C61_cphase_eq_iff (a b : ℝ) : CPHASE a = CPHASE b ↔ ∃ n : ℤ, a = b + n * (2 * Real.pi) := by
  have h : CPHASE a = CPHASE b ↔ Complex.exp (Complex.I * a) = Complex.exp (Complex.I * b) := by
    rw [CPHASE_eq, CPHASE_eq]
    constructor
    · intro h
      have := congrFun (congrFun h 3) 3
      simpa using this
    · intro h; rw [h]
  rw [h, Complex.exp_eq_exp_iff_exists_int]
  refine exists_congr fun n => ?_
  constructor
  · intro h
    have h1 := congrArg Complex.im h
    simpa using h1
  · intro h; rw [h]; push_cast; ring

/-- **C61 (symmetry).** CPHASE does not distinguish control and target. -/
theorem C61_cphase_swap (phase : ℝ) (a b a' b' : Fin 2) :
    innerProd (CPHASE phase * ket2 a b) (some (ket2 a' b')) = innerProd (CPHASE phase * ket2 b a) (some (ket2 b' a')) := by
  rw [ket2_eq, ket2_eq, ket2_eq, ket2_eq, CPHASE_eq, innerProd_eq, innerProd_eq]
  fin_cases a <;> fin_cases b <;> fin_cases a' <;> fin_cases b' <;> simp [basis, Fin.sum_univ_four, Matrix.diagonal_mul]

theorem kron_one_hadamard : (kron (1 : Op 2) Hadamard : Op (2 * 2)) = (1 / ((Real.sqrt 2 : ℝ) : ℂ)) •
    (!![1, 1, 0, 0; 1, -1, 0, 0; 0, 0, 1, 1; 0, 0, 1, -1] : Op 4) := by
  have e : ∀ x y : Fin (2 * 2), (kron (1 : Op 2) Hadamard : Op (2 * 2)) x y =
      (1 : Op 2) (finProdFinEquiv.symm x).1 (finProdFinEquiv.symm y).1 * Hadamard (finProdFinEquiv.symm x).2 (finProdFinEquiv.symm y).2 :=
    fun x y => rfl
  have s0 : finProdFinEquiv.symm (0 : Fin (2 * 2)) = ((0 : Fin 2), (0 : Fin 2)) := by decide
  have s1 : finProdFinEquiv.symm (1 : Fin (2 * 2)) = ((0 : Fin 2), (1 : Fin 2)) := by decide
  have s2 : finProdFinEquiv.symm (2 : Fin (2 * 2)) = ((1 : Fin 2), (0 : Fin 2)) := by decide
  have s3 : finProdFinEquiv.symm (3 : Fin (2 * 2)) = ((1 : Fin 2), (1 : Fin 2)) := by decide
  have key : ∀ i j : Fin 4, (kron (1 : Op 2) Hadamard : Op (2 * 2)) i j = ((1 / ((Real.sqrt 2 : ℝ) : ℂ)) • (!![1, 1, 0, 0; 1, -1, 0, 0; 0, 0, 1, 1; 0, 0, 1, -1] : Op 4)) i j := by
    have h4 : ∀ i : Fin (2 * 2), i = 0 ∨ i = 1 ∨ i = 2 ∨ i = 3 := by decide
    intro i j
    rw [e, Matrix.one_apply]
    rcases h4 i with rfl | rfl | rfl | rfl <;> rcases h4 j with rfl | rfl | rfl | rfl <;>
      simp only [s0, s1, s2, s3, Hadamard_eq] <;> simp
  ext i j
  exact key i j

/-- **C61 (relations).** Hadamard gates on the target turn the phase `pi` into CNOT, and exchange the Pauli matrices. -/
theorem C61_relations : (kron (1 : Op 2) Hadamard : Op (2 * 2)) * CPHASE Real.pi * (kron (1 : Op 2) Hadamard : Op (2 * 2)) = CNOT ∧
    Hadamard * sigmaz * Hadamard = sigmax ∧ Hadamard * sigmax * Hadamard = sigmaz := by
  refine ⟨?_, ?_, ?_⟩
  · have h : CPHASE Real.pi = !![1, 0, 0, 0; 0, 1, 0, 0; 0, 0, 1, 0; 0, 0, 0, -1] := by
      rw [CPHASE_eq, mul_comm, Complex.exp_pi_mul_I]
      ext i j
      fin_cases i <;> fin_cases j <;> simp
    rw [kron_one_hadamard, h, CNOT_eq, Matrix.smul_mul, Matrix.smul_mul, Matrix.mul_smul, smul_smul, inv_sqrt2_sq]
    ext i j
    fin_cases i <;> fin_cases j <;> simp [Matrix.mul_apply, Fin.sum_univ_four] <;> norm_num
  · rw [Hadamard_eq, Matrix.smul_mul, Matrix.smul_mul, Matrix.mul_smul, smul_smul, inv_sqrt2_sq]
    ext i j
    fin_cases i <;> fin_cases j <;> simp [Matrix.mul_apply, Fin.sum_univ_two, sigmaz, sigmax] <;> norm_num
  · rw [Hadamard_eq, Matrix.smul_mul, Matrix.smul_mul, Matrix.mul_smul, smul_smul, inv_sqrt2_sq]
    ext i j
    fin_cases i <;> fin_cases j <;> simp [Matrix.mul_apply, Fin.sum_univ_two, sigmaz, sigmax] <;> norm_num

theorem kron_hadamard_one : (kron Hadamard (1 : Op 2) : Op (2 * 2)) = (1 / ((Real.sqrt 2 : ℝ) : ℂ)) •
    (!![1, 0, 1, 0; 0, 1, 0, 1; 1, 0, -1, 0; 0, 1, 0, -1] : Op 4) := by
  have e : ∀ x y : Fin (2 * 2), (kron Hadamard (1 : Op 2) : Op (2 * 2)) x y =
      Hadamard (finProdFinEquiv.symm x).1 (finProdFinEquiv.symm y).1 * (1 : Op 2) (finProdFinEquiv.symm x).2 (finProdFinEquiv.symm y).2 :=
    fun x y => rfl
  have s0 : finProdFinEquiv.symm (0 : Fin (2 * 2)) = ((0 : Fin 2), (0 : Fin 2)) := by decide
  have s1 : finProdFinEquiv.symm (1 : Fin (2 * 2)) = ((0 : Fin 2), (1 : Fin 2)) := by decide
  have s2 : finProdFinEquiv.symm (2 : Fin (2 * 2)) = ((1 : Fin 2), (0 : Fin 2)) := by decide
  have s3 : finProdFinEquiv.symm (3 : Fin (2 * 2)) = ((1 : Fin 2), (1 : Fin 2)) := by decide
  have key : ∀ i j : Fin 4, (kron Hadamard (1 : Op 2) : Op (2 * 2)) i j = ((1 / ((Real.sqrt 2 : ℝ) : ℂ)) • (!![1, 0, 1, 0; 0, 1, 0, 1; 1, 0, -1, 0; 0, 1, 0, -1] : Op 4)) i j := by
    have h4 : ∀ i : Fin (2 * 2), i = 0 ∨ i = 1 ∨ i = 2 ∨ i = 3 := by decide
    intro i j
    rw [e, Matrix.one_apply]
    rcases h4 i with rfl | rfl | rfl | rfl <;> rcases h4 j with rfl | rfl | rfl | rfl <;>
      simp only [s0, s1, s2, s3, Hadamard_eq] <;> simp
  ext i j
  exact key i j

/-- **C61 (Bell states).** Hadamard on the first qubit followed by CNOT maps `|a b>` to the four Bell states of the library. -/
theorem C61_bell (a b : Fin 2) : some (CNOT * ((kron Hadamard (1 : Op 2) : Op (2 * 2)) * ket2 a b)) =
    bellState (if b = 0 then (if a = 0 then "Phi+" else "Phi-") else (if a = 0 then "Psi+" else "Psi-")) := by
  have hm : ∀ M : Op 4, ∀ k : ℕ, k < 4 → ∀ x : Fin 4, ∀ y : Fin 1, (M * basis 4 k) x y = if h : k < 4 then M x ⟨k, h⟩ else 0 := by
    intro M k hk x y
    rw [Matrix.mul_apply, dif_pos hk, Finset.sum_eq_single ⟨k, hk⟩]
    · simp [basis]
    · intro i _ hi
      have : (i : ℕ) ≠ k := fun h => hi (Fin.ext h)
      simp [basis, this]
    · simp
  have hb1 : bellState "Phi+" = some ((1 / ((Real.sqrt 2 : ℝ) : ℂ)) • (!![1; 0; 0; 1] : Ket 4)) := by simp [bellState]
  have hb2 : bellState "Phi-" = some ((1 / ((Real.sqrt 2 : ℝ) : ℂ)) • (!![1; 0; 0; -1] : Ket 4)) := by simp [bellState]
  have hb3 : bellState "Psi+" = some ((1 / ((Real.sqrt 2 : ℝ) : ℂ)) • (!![0; 1; 1; 0] : Ket 4)) := by simp [bellState]
  have hb4 : bellState "Psi-" = some ((1 / ((Real.sqrt 2 : ℝ) : ℂ)) • (!![0; 1; -1; 0] : Ket 4)) := by simp [bellState]
  rw [ket2_eq, kron_hadamard_one, ← Matrix.mul_assoc, CNOT_eq, Matrix.mul_smul]
  fin_cases a <;> fin_cases b
  · refine (congrArg some ?_).trans hb1.symm
    ext x y
    rw [hm _ _ (by norm_num)]
    fin_cases x <;> simp [Matrix.mul_apply, Fin.sum_univ_four]
  · refine (congrArg some ?_).trans hb3.symm
    ext x y
    rw [hm _ _ (by norm_num)]
    fin_cases x <;> simp [Matrix.mul_apply, Fin.sum_univ_four]
  · refine (congrArg some ?_).trans hb2.symm
    ext x y
    rw [hm _ _ (by norm_num)]
    fin_cases x <;> simp [Matrix.mul_apply, Fin.sum_univ_four]
  · refine (congrArg some ?_).trans hb4.symm
    ext x y
    rw [hm _ _ (by norm_num)]
    fin_cases x <;> simp [Matrix.mul_apply, Fin.sum_univ_four]

/-- **C61 (entanglement).** CPHASE applied to the uniform superposition gives concurrence `|sin(phase/2)|`. -/
theorem C61_entangle (phase : ℝ) : concurrence (.ket (CPHASE phase * (!![1 / 2; 1 / 2; 1 / 2; 1 / 2] : Ket 4))) =
    |Real.sin (phase / 2)| := by
  rw [C60_pure, CPHASE_eq]
  simp only [Matrix.diagonal_mul]
  have h1 : (![1, 1, 1, Complex.exp (Complex.I * phase)] : Fin 4 → ℂ) 0 * (!![1 / 2; 1 / 2; 1 / 2; 1 / 2] : Ket 4) 0 0 *
      ((![1, 1, 1, Complex.exp (Complex.I * phase)] : Fin 4 → ℂ) 3 * (!![1 / 2; 1 / 2; 1 / 2; 1 / 2] : Ket 4) 3 0) -
      (![1, 1, 1, Complex.exp (Complex.I * phase)] : Fin 4 → ℂ) 1 * (!![1 / 2; 1 / 2; 1 / 2; 1 / 2] : Ket 4) 1 0 *
      ((![1, 1, 1, Complex.exp (Complex.I * phase)] : Fin 4 → ℂ) 2 * (!![1 / 2; 1 / 2; 1 / 2; 1 / 2] : Ket 4) 2 0) =
      (1 / 4 : ℂ) * (Complex.exp (Complex.I * phase) - 1) := by
    simp; ring
  rw [h1, norm_mul]
  have h2 : ‖Complex.exp (Complex.I * phase) - 1‖ = 2 * |Real.sin (phase / 2)| := by
    have e : Complex.exp (Complex.I * phase) - 1 = Complex.exp (Complex.I * (phase / 2 : ℝ)) * (2 * Complex.I * Complex.sin ((phase / 2 : ℝ) : ℂ)) := by
      rw [Complex.sin]
      have e1 : Complex.exp (Complex.I * phase) = Complex.exp (Complex.I * (phase / 2 : ℝ)) * Complex.exp (Complex.I * (phase / 2 : ℝ)) := by
        rw [← Complex.exp_add]; congr 1; push_cast; ring
      have e2 : Complex.exp (Complex.I * (phase / 2 : ℝ)) * Complex.exp (-((phase / 2 : ℝ) : ℂ) * Complex.I) = 1 := by
        rw [← Complex.exp_add, show Complex.I * ((phase / 2 : ℝ) : ℂ) + -((phase / 2 : ℝ) : ℂ) * Complex.I = 0 by ring, Complex.exp_zero]
      rw [e1, mul_comm ((phase / 2 : ℝ) : ℂ) Complex.I]
      linear_combination e2 - (Complex.exp (Complex.I * (phase / 2 : ℝ)) * Complex.exp (-((phase / 2 : ℝ) : ℂ) * Complex.I) -
        Complex.exp (Complex.I * (phase / 2 : ℝ)) * Complex.exp (Complex.I * (phase / 2 : ℝ))) * Complex.I_sq
    rw [e, norm_mul, mul_comm Complex.I, Complex.norm_exp_ofReal_mul_I, one_mul, norm_mul, norm_mul, Complex.norm_I, ← Complex.ofReal_sin,
      Complex.norm_real, Real.norm_eq_abs]
    simp
  rw [h2, norm_div]
  norm_num
  ring

/-- Concrete values. -/
example : CNOT * ket2 1 0 = ket2 1 1 ∧ concurrence (.ket (CPHASE Real.pi * (!![1 / 2; 1 / 2; 1 / 2; 1 / 2] : Ket 4))) = 1 ∧
    CPHASE (Real.pi / 2) * CPHASE (Real.pi / 2) = CPHASE Real.pi ∧ CPHASE 1 ≠ CPHASE 2 := by
  refine ⟨C61_cnot 1 0, by rw [C61_entangle]; simp, by rw [(C61_cphase_add _ _).1]; congr 1; ring, ?_⟩
  rw [Ne, C61_cphase_eq_iff]
  rintro ⟨n, hn⟩
  have h1 : (n : ℝ) * (2 * Real.pi) = -1 := by linarith
  have hp := Real.two_le_pi
  have h2 : -1 < (n : ℝ) := by nlinarith
  have h3 : (n : ℝ) < 0 := by nlinarith
  have h4 : (-1 : ℤ) < n := by exact_mod_cast h2
  have h5 : n < 0 := by exact_mod_cast h3
  omega

end Verif.Toolbox.Gates
