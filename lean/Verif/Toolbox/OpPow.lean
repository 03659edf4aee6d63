import Verif.Toolbox.Boson
import Verif.Toolbox.Spin

/-!
# C84: powers of operators

`operatorPow` (`operators.py:968-1011`) and `_matPower` (`linearAlgebra.py:405-446`).  Simplifications: those of `Verif.Toolbox.Operators`;
any exception is `none`; an operator function is given by how it takes its positional arguments, and the returned format is not modelled.
-/
namespace Verif.Toolbox
open Matrix

/-- A square matrix together with its dimension, what an operator function returns. -/
abbrev AnyOp := Σ d : ℕ, Op d

/-- `_matPower` (`linearAlgebra.py:405-446`); `none` is the failing assertion `power > 0`. -/
def matPow {d : ℕ} (A : Op d) : ℕ → Option (Op d)
  | 0 => none
  | 1 => some A
  | n + 2 => match matPow A (n + 1) with
    | none => none
    | some B => some (A * B)

/-- `_matPower` of any matrix with an `int` power. -/
def matPowAny (A : AnyOp) (power : ℤ) : Option AnyOp := (matPow A.2 power.toNat).map (Sigma.mk A.1)

/-- The functions of `operators.py` by their positional arguments. -/
inductive OpFun
  /-- `op(dimension, sparse)`: `number`, `destroy`, `create`, `identity`, `paritySUM` -/
  | fock (f : (d : ℕ) → Op d)
  /-- `op(sparse)`: `sigmax`, ... -/
  | pauli (m : Op 2)
  /-- `op(j, sparse, isDim)`: `Jx`, ... -/
  | spin (f : (j : ℚ) → Op (spinArgs j false).1)

/-- `op(dim, sparse)`: a negative shape raises ValueError, two arguments for `op(sparse)` raise TypeError. -/
def OpFun.two : OpFun → ℤ → Option AnyOp
  | .fock f, dim => if dim < 0 then none else some ⟨dim.toNat, f dim.toNat⟩
  | .pauli _, _ => none
  | .spin f, dim => if dim < 0 then none else some ⟨_, f (dim : ℚ)⟩

/-- `op(sparse)`: as a dimension or a spin, `True` is one and `False` zero. -/
def OpFun.one : OpFun → Bool → Option AnyOp
  | .fock f, sparse => some ⟨sparse.toNat, f sparse.toNat⟩
  | .pauli m, _ => some ⟨2, m⟩
  | .spin f, sparse => some ⟨_, f (sparse.toNat : ℚ)⟩

/-- `operatorPow` (`operators.py:1007-1011`): the `except` has no exception type, so the second call follows any error of the first line. -/
def operatorPow (op : OpFun) (dim power : ℤ) (sparse : Bool := true) : Option AnyOp :=
  match (op.two dim).bind fun A => matPowAny A power with
  | some B => some B
  | none => (op.one sparse).bind fun A => matPowAny A power

theorem matPow_eq {d : ℕ} (A : Op d) (n : ℕ) : matPow A (n + 1) = some (A ^ (n + 1)) := by
  induction n with
  | zero => simp [matPow]
  | succ n ih => simp only [matPow, ih]; rw [← pow_succ']

theorem matPowAny_eq {d : ℕ} (A : Op d) (k : ℕ) (hk : 0 < k) : matPowAny ⟨d, A⟩ k = some ⟨d, A ^ k⟩ := by
  obtain ⟨n, rfl⟩ := Nat.exists_eq_succ_of_ne_zero hk.ne'
  unfold matPowAny
  rw [Int.toNat_natCast, matPow_eq]; rfl

/-- The operators of a dimension: the power of the operator of this dimension. -/
theorem C84_fock_partial (f : (d : ℕ) → Op d) (d k : ℕ) (hk : 0 < k) (sparse : Bool) :
    operatorPow (.fock f) d k sparse = some ⟨d, f d ^ k⟩ := by
  have : ¬ ((d : ℤ) < 0) := by omega
  simp [operatorPow, OpFun.two, this, matPowAny_eq _ _ hk]

/-- The Pauli operators: the power of the operator, whatever dimension is given. -/
theorem C84_pauli_partial (m : Op 2) (dim : ℤ) (k : ℕ) (hk : 0 < k) (sparse : Bool) :
    operatorPow (.pauli m) dim k sparse = some ⟨2, m ^ k⟩ := by
  simp [operatorPow, OpFun.two, OpFun.one, matPowAny_eq _ _ hk]

/-- Powers that are not positive raise. -/
theorem C84_power_positive (op : OpFun) (dim power : ℤ) (sparse : Bool) (h : power ≤ 0) : operatorPow op dim power sparse = none := by
  have h0 : ∀ A : AnyOp, matPowAny A power = none := by
    intro A
    unfold matPowAny
    rw [Int.toNat_of_nonpos h]; rfl
  unfold operatorPow
  cases op.two dim <;> cases op.one sparse <;> simp [h0]

theorem spinArgs_as_spin (d : ℕ) : (spinArgs (d : ℚ) false).1 = 2 * d + 1 := by
  have : (2 * (d : ℚ) + 1) = ((2 * d + 1 : ℕ) : ℚ) := by push_cast; ring
  show ⌊2 * (d : ℚ) + 1⌋₊ = _
  rw [this, Nat.floor_natCast]

/-- The angular momentum operators: `dim` is taken for the spin, so the result never has the requested dimension. -/
theorem C84_spin_dimension (f : (j : ℚ) → Op (spinArgs j false).1) (d k : ℕ) (hk : 0 < k) (sparse : Bool) :
    ∃ A : AnyOp, operatorPow (.spin f) d k sparse = some A ∧ A = ⟨_, f d ^ k⟩ ∧ A.1 = 2 * d + 1 ∧ A.1 ≠ d := by
  have h0 : ¬ ((d : ℤ) < 0) := by omega
  refine ⟨⟨_, f d ^ k⟩, ?_, rfl, spinArgs_as_spin d, ?_⟩
  · unfold operatorPow OpFun.two
    simp only [if_neg h0, Option.bind_some, matPowAny_eq _ _ hk]
    rw [Int.cast_natCast]
  · show (spinArgs (d : ℚ) false).1 ≠ d
    rw [spinArgs_as_spin]; omega

/-- Errors of the first call are lost: for a negative dimension the operators of dimension one (or spin one) are returned. -/
theorem C84_errors_lost (dim : ℤ) (hd : dim < 0) (k : ℕ) (hk : 0 < k) (f : (d : ℕ) → Op d) (g : (j : ℚ) → Op (spinArgs j false).1) :
    operatorPow (.fock f) dim k = some ⟨1, f 1 ^ k⟩ ∧ operatorPow (.spin g) dim k = some ⟨_, g ((1 : ℕ) : ℚ) ^ k⟩ := by
  constructor <;> simp [operatorPow, OpFun.two, OpFun.one, hd, Bool.toNat, matPowAny_eq _ _ hk]

/-- Nothing but a power that is not positive raises. -/
theorem C84_raises_iff (op : OpFun) (dim power : ℤ) (sparse : Bool) : operatorPow op dim power sparse = none ↔ power ≤ 0 := by
  constructor
  · intro h
    by_contra hp
    have hk : 0 < power.toNat := by omega
    have e : ∀ A : AnyOp, ∃ B, matPowAny A power = some B := by
      rintro ⟨d, A⟩
      have h := matPowAny_eq A _ hk
      rw [Int.toNat_of_nonneg (by omega : 0 ≤ power)] at h
      exact ⟨_, h⟩
    obtain ⟨A, hA⟩ : ∃ A, op.one sparse = some A := by cases op <;> exact ⟨_, rfl⟩
    obtain ⟨B, hB⟩ := e A
    unfold operatorPow at h
    split at h
    · cases h
    · rw [hA] at h
      simp [hB] at h
  · exact C84_power_positive op dim power sparse

/-! ### The powers of the operators -/

theorem sup_pow (d : ℕ) (f : ℕ → ℂ) (k : ℕ) (i j : Fin d) :
    (sup d f ^ k) i j = if (i : ℕ) + k = j then ∏ t ∈ Finset.range k, f (i + t) else 0 := by
  induction k generalizing i with
  | zero => simp [Matrix.one_apply, Fin.ext_iff]
  | succ k ih =>
    rw [pow_succ', Matrix.mul_apply]
    by_cases hi : (i : ℕ) + 1 < d
    · rw [Finset.sum_eq_single (⟨i + 1, hi⟩ : Fin d)]
      · rw [ih]
        simp only [sup, Matrix.of_apply]
        by_cases h : (i : ℕ) + (k + 1) = j
        · rw [if_pos trivial, if_pos (by omega), if_pos h, Finset.prod_range_succ']
          rw [mul_comm]
          congr 1
          exact Finset.prod_congr rfl fun t _ => by congr 1; omega
        · rw [if_neg (show ¬ ((i : ℕ) + 1 + k = j) by omega), if_neg h, mul_zero]
      · intro x _ hx
        have : ¬ ((i : ℕ) + 1 = x) := fun e => hx (Fin.ext e.symm)
        simp [sup, this]
      · intro h; exact absurd (Finset.mem_univ _) h
    · rw [Finset.sum_eq_zero, if_neg (by omega)]
      intro x _
      have : ¬ ((i : ℕ) + 1 = x) := by omega
      simp [sup, this]

theorem diag_pow (d : ℕ) (f : ℕ → ℂ) (k : ℕ) : diag d f ^ k = diag d fun i => f i ^ k := by
  induction k with
  | zero => simp [diag_one]
  | succ k ih => rw [pow_succ', ih, diag_mul_diag]; simp only [pow_succ']

theorem prod_sqrt (i k : ℕ) : (∏ t ∈ Finset.range k, ((Real.sqrt (((i + t : ℕ) : ℝ) + 1) : ℝ) : ℂ)) =
    ((Real.sqrt ((i + k).factorial / i.factorial) : ℝ) : ℂ) := by
  induction k with
  | zero => simp [div_self (Nat.cast_ne_zero.mpr (Nat.factorial_ne_zero i) : (i.factorial : ℝ) ≠ 0)]
  | succ k ih =>
    rw [Finset.prod_range_succ, ih, ← Complex.ofReal_mul, ← Real.sqrt_mul (by positivity)]
    congr 2
    rw [← Nat.add_assoc, Nat.factorial_succ]
    push_cast; ring

/-- The entries of the powers of the bosonic operators; in particular the `d`-th power of the ladder operators is zero. -/
theorem C84_boson_powers (d k : ℕ) (i j : Fin d) :
    (destroy d ^ k) i j = (if (i : ℕ) + k = j then ((Real.sqrt ((j : ℕ).factorial / (i : ℕ).factorial) : ℝ) : ℂ) else 0) ∧
    (create d ^ k) i j = (if (j : ℕ) + k = i then ((Real.sqrt ((i : ℕ).factorial / (j : ℕ).factorial) : ℝ) : ℂ) else 0) ∧
    (number d ^ k) i j = (if i = j then ((i : ℕ) : ℂ) ^ k else 0) := by
  have e : ∀ i j : Fin d, (destroy d ^ k) i j =
      (if (i : ℕ) + k = j then ((Real.sqrt ((j : ℕ).factorial / (i : ℕ).factorial) : ℝ) : ℂ) else 0) := by
    intro i j
    rw [destroy_eq, sup_pow]
    by_cases h : (i : ℕ) + k = j
    · rw [if_pos h, if_pos h, prod_sqrt, h]
    · rw [if_neg h, if_neg h]
  refine ⟨e i j, ?_, ?_⟩
  · rw [(C43_adjoint d).2, ← Matrix.conjTranspose_pow, Matrix.conjTranspose_apply, e j i]
    by_cases h : (j : ℕ) + k = i
    · rw [if_pos h]; exact Complex.conj_ofReal _
    · rw [if_neg h, star_zero]
  · rw [number_eq, diag_pow]
    simp [diag, Fin.ext_iff]

theorem C84_ladder_nilpotent (d k : ℕ) (h : d ≤ k) : destroy d ^ k = 0 ∧ create d ^ k = 0 := by
  constructor
  · ext i j
    rw [(C84_boson_powers d k i j).1, if_neg (by omega)]; rfl
  · ext i j
    rw [(C84_boson_powers d k i j).2.1, if_neg (by omega)]; rfl

/-- Even powers of the Pauli operators are the identity, odd powers the operator; the ladder operators square to zero. -/
theorem C84_pauli_powers (n : ℕ) :
    (sigmax ^ (2 * n) = 1 ∧ sigmax ^ (2 * n + 1) = sigmax) ∧ (sigmay ^ (2 * n) = 1 ∧ sigmay ^ (2 * n + 1) = sigmay) ∧
    (sigmaz ^ (2 * n) = 1 ∧ sigmaz ^ (2 * n + 1) = sigmaz) ∧ sigmap ^ (n + 2) = 0 ∧ sigmam ^ (n + 2) = 0 := by
  have inv : ∀ m : Op 2, m * m = 1 → m ^ (2 * n) = 1 ∧ m ^ (2 * n + 1) = m := by
    intro m h
    have : m ^ (2 * n) = 1 := by rw [pow_mul, pow_two, h, one_pow]
    exact ⟨this, by rw [pow_succ, this, one_mul]⟩
  have nil : ∀ m : Op 2, m * m = 0 → m ^ (n + 2) = 0 := by
    intro m h
    rw [pow_add, pow_two, h, mul_zero]
  refine ⟨inv _ ?_, inv _ ?_, inv _ ?_, nil _ ?_, nil _ ?_⟩ <;> ext i j <;> fin_cases i <;> fin_cases j <;>
    simp [sigmax, sigmay, sigmaz, sigmap, sigmam, Matrix.mul_apply, Fin.sum_univ_two]

/-- `operatorPow(destroy, 3, 2)` has the one entry `sqrt(2)`. -/
example : ∃ A : Op 3, operatorPow (.fock destroy) 3 2 = some ⟨3, A⟩ ∧ A 0 2 = ((Real.sqrt 2 : ℝ) : ℂ) ∧ A 0 1 = 0 := by
  refine ⟨destroy 3 ^ 2, C84_fock_partial destroy 3 2 (by omega) true, ?_, ?_⟩
  · rw [(C84_boson_powers 3 2 0 2).1]; simp [Nat.factorial]
  · rw [(C84_boson_powers 3 2 0 1).1]; simp

/-- `operatorPow(sigmax, 2, 3)` is `sigmax()`, and so is `operatorPow(sigmax, 5, 3)`. -/
example : operatorPow (.pauli sigmax) 2 3 = some ⟨2, sigmax⟩ ∧ operatorPow (.pauli sigmax) 5 3 = some ⟨2, sigmax⟩ := by
  have h := (C84_pauli_powers 1).1.2
  constructor
  · exact (C84_pauli_partial sigmax 2 3 (by omega) true).trans (by rw [h])
  · exact (C84_pauli_partial sigmax 5 3 (by omega) true).trans (by rw [h])

/-- `operatorPow(Jz, 2, 1)` is `5 × 5`. -/
example : (operatorPow (.spin Jz) 2 1).map Sigma.fst = some 5 := by
  obtain ⟨A, h, -, h1, -⟩ := C84_spin_dimension (fun j => Jz j) 2 1 (by omega) true
  have h : operatorPow (.spin Jz) 2 1 = some A := h
  rw [h]; simp [h1]

/-- `operatorPow(number, -3, 2)` is the `1 × 1` matrix of dimension one; the power zero raises. -/
example : operatorPow (.fock number) (-3) 2 = some ⟨1, number 1 ^ 2⟩ ∧ operatorPow (.fock number) 3 0 = none :=
  ⟨(C84_errors_lost (-3) (by omega) 2 (by omega) number fun j => Jz j).1, C84_power_positive _ _ _ _ le_rfl⟩

end Verif.Toolbox
