import Verif.Toolbox.Rotations

/-!
# C44 rotation gates, C47 gates in open systems
-/
namespace Verif.Toolbox
open Matrix NormedSpace

/-! ## Exponential of an involution -/

theorem exp_smul_one {d : ℕ} (c : ℂ) : exp (c • (1 : Op d)) = Complex.exp c • (1 : Op d) := by
  have : c • (1 : Op d) = Matrix.diagonal fun _ => c := by
    rw [← Matrix.diagonal_one]; ext i j; by_cases h : i = j <;> simp [h]
  rw [this, Matrix.exp_diagonal]
  ext i j
  by_cases h : i = j
  · subst h; rw [Matrix.diagonal_apply_eq, Pi.coe_exp]; simp [Complex.exp_eq_exp_ℂ]
  · simp [h]

/-- For `S` with `S^2 = 1`, `exp(c S) = cosh(c) + sinh(c) S`, in every dimension. -/
theorem exp_involution {d : ℕ} (S : Op d) (hS : S * S = 1) (c : ℂ) :
    exp (c • S) = Complex.cosh c • (1 : Op d) + Complex.sinh c • S := by
  have hP : ((1 : Op d) + S) * (c • S) = (c • (1 : Op d)) * (1 + S) := by
    simp only [add_mul, one_mul, Matrix.mul_smul, hS, Matrix.smul_mul, mul_add, mul_one, smul_add]
    abel
  have hQ : ((1 : Op d) - S) * (c • S) = ((-c) • (1 : Op d)) * (1 - S) := by
    simp only [sub_mul, one_mul, Matrix.mul_smul, hS, Matrix.smul_mul, mul_sub, mul_one, smul_sub]
    module
  have h1 := mul_exp_of_intertwine _ _ _ hP
  have h2 := mul_exp_of_intertwine _ _ _ hQ
  rw [exp_smul_one, Matrix.smul_mul, one_mul] at h1 h2
  have h3 : (2 : ℂ) • exp (c • S) = (1 + S) * exp (c • S) + (1 - S) * exp (c • S) := by
    rw [← add_mul, show (1 : Op d) + S + (1 - S) = (2 : ℂ) • (1 : Op d) by module, Matrix.smul_mul, one_mul]
  have h4 : exp (c • S) = (1 / 2 : ℂ) • ((2 : ℂ) • exp (c • S)) := by
    rw [smul_smul]; norm_num
  rw [h4, h3, h1, h2, Complex.cosh, Complex.sinh]
  module

theorem pauli_sq (a : Axis) : pauli a * pauli a = 1 := by
  cases a
  · simp only [pauli, sigmax]; ext i j; fin_cases i <;> fin_cases j <;> simp
  · simp only [pauli, sigmay]; ext i j; fin_cases i <;> fin_cases j <;> simp
  · simp only [pauli, sigmaz]; ext i j; fin_cases i <;> fin_cases j <;> simp

theorem pauli_herm (a : Axis) : (pauli a)ᴴ = pauli a := by
  cases a
  · simp only [pauli, sigmax]; ext i j; fin_cases i <;> fin_cases j <;> simp
  · simp only [pauli, sigmay]; ext i j; fin_cases i <;> fin_cases j <;> simp
  · simp only [pauli, sigmaz]; ext i j; fin_cases i <;> fin_cases j <;> simp

/-! ## C44 -/

theorem unitaryOp_involution {d : ℕ} (S : Op d) (hS : S * S = 1) (r : ℝ) :
    unitaryOp ((r : ℂ) • S) 1 = ((Real.cos r : ℝ) : ℂ) • (1 : Op d) - (Complex.I * ((Real.sin r : ℝ) : ℂ)) • S := by
  have : ((1 : ℝ) : ℂ) • ((-Complex.I) • ((r : ℂ) • S)) = (-((r : ℂ) * Complex.I)) • S := by
    rw [smul_smul, smul_smul]; congr 1; push_cast; ring
  rw [unitaryOp, this, exp_involution S hS, Complex.cosh_neg, Complex.sinh_neg, Complex.cosh_mul_I, Complex.sinh_mul_I,
    Complex.ofReal_cos, Complex.ofReal_sin]
  module

/-- **C44 (exponential).** The rotation matrices are `exp(-i angle sigma / 2)`. -/
theorem C44_exp (a : Axis) (angle : ℝ) :
    axisRotation a angle = exp ((-(Complex.I * angle / 2)) • pauli a) := by
  rw [axisRotation, ← unitaryOp_involution _ (pauli_sq a), unitaryOp]
  congr 1
  rw [smul_smul, smul_smul]; congr 1; push_cast; ring

/-- **C44 (composition).** -/
theorem C44_compose (a : Axis) (s t : ℝ) : axisRotation a s * axisRotation a t = axisRotation a (s + t) := by
  rw [C44_exp, C44_exp, C44_exp, ← Matrix.exp_add_of_commute _ _ (((Commute.refl _).smul_left _).smul_right _)]
  congr 1
  push_cast; module

/-- **C44 (unitarity).** -/
theorem C44_unitary (a : Axis) (angle : ℝ) :
    hc (axisRotation a angle) * axisRotation a angle = 1 ∧ axisRotation a angle * hc (axisRotation a angle) = 1 := by
  have h : hc (axisRotation a angle) = axisRotation a (-angle) := by
    rw [hc_eq, axisRotation, axisRotation, conjTranspose_sub, conjTranspose_smul, conjTranspose_smul, conjTranspose_one,
      pauli_herm, neg_div, Real.cos_neg, Real.sin_neg]
    simp [-Complex.ofReal_cos, -Complex.ofReal_sin]
  have h0 : axisRotation a 0 = 1 := by simp [axisRotation]
  rw [h, C44_compose, C44_compose]
  simp [h0]

/-- **C44 (period).** Period `4 pi`; a full turn changes the sign, so `2 pi` is not a period. -/
theorem C44_period (a : Axis) (angle : ℝ) :
    axisRotation a (angle + 4 * Real.pi) = axisRotation a angle ∧
    axisRotation a (angle + 2 * Real.pi) = -axisRotation a angle := by
  constructor
  · have : (angle + 4 * Real.pi) / 2 = angle / 2 + 2 * Real.pi := by ring
    rw [axisRotation, axisRotation, this, Real.cos_add_two_pi, Real.sin_add_two_pi]
  · have : (angle + 2 * Real.pi) / 2 = angle / 2 + Real.pi := by ring
    rw [axisRotation, axisRotation, this, Real.cos_add_pi, Real.sin_add_pi]
    push_cast; module

theorem spinOfDim_herm (a : Axis) (d : ℕ) (hd : 0 < d) : (spinOfDim a d)ᴴ = spinOfDim a d := by
  have h := C42_spin_algebra d true (Or.inr ⟨rfl, d, hd, rfl⟩)
  rw [spinOfDim, Matrix.conjTranspose_reindex]
  cases a
  · rw [spinAxis, h.herm_x]
  · rw [spinAxis, h.herm_y]
  · rw [spinAxis, h.herm_z]

theorem reindex_eq_of_heq {m n : ℕ} (h : m = n) (A : Op m) (B : Op n) (hAB : HEq A B) :
    Matrix.reindex (finCongr h) (finCongr h) A = B := by
  subst h; rw [eq_of_heq hAB]; rfl

theorem spinArgs_two : spinArgs 2 true = (2, 1 / 2) := by
  norm_num [spinArgs]

/-- With dimension 2 the spin operators are half the Pauli matrices as well. -/
theorem spin_two (a : Axis) : HEq (spinAxis a 2 true) ((1 / 2 : ℂ) • pauli a) ∧
    HEq (spinAxis a (1 / 2) false) ((1 / 2 : ℂ) • pauli a) := by
  have hh := C42_half
  refine ⟨?_, by cases a <;> [exact hh.1; exact hh.2.1; exact hh.2.2.1]⟩
  have e : HEq (spinAxis a 2 true) (spinAxis a (1 / 2) false) := by
    cases a <;> simp only [spinAxis, Jx, Jy, Jz, Jp, Jm] <;> rw [spinArgs_two, spinArgs_half]
  exact e.trans (by cases a <;> [exact hh.1; exact hh.2.1; exact hh.2.2.1])

theorem spinOfDim_two (a : Axis) : spinOfDim a 2 = (1 / 2 : ℂ) • pauli a := by
  apply reindex_eq_of_heq
  have := (spin_two a).1
  simpa using this

/-- **C44 (agreement with `spinRotation`).** For spin 1/2 `spinRotation` is `qubRotation`, for every axis name. -/
theorem C44_spinRotation_half (xyz : String) (angle : ℝ) :
    ∀ U V, spinRotation xyz angle (1 / 2) = some U → qubRotation xyz angle = some V → HEq U V := by
  intro U V hU hV
  simp only [spinRotation, qubRotation] at hU hV
  cases ha : parseAxis xyz with
  | none => rw [ha] at hV; simp at hV
  | some a =>
    rw [ha] at hU hV
    simp only [Option.map_some, Option.some.injEq] at hU hV
    subst hU; subst hV
    have h1 := (spin_two a).2
    have hd : (spinArgs (1 / 2) false).1 = 2 := by rw [spinArgs_half]
    revert h1
    generalize spinAxis a (1 / 2) false = X
    generalize (spinArgs (1 / 2) false).1 = n at *
    subst hd
    intro h1
    rw [eq_of_heq h1]
    apply heq_of_eq
    have : (angle : ℂ) • ((1 / 2 : ℂ) • pauli a) = ((angle / 2 : ℝ) : ℂ) • pauli a := by
      rw [smul_smul]; congr 1; push_cast; ring
    rw [this, unitaryOp_involution _ (pauli_sq a), axisRotation]

/-- Both accept exactly the same axis names. -/
theorem C44_axis_names (xyz : String) (angle : ℝ) (j : ℚ) (isDim : Bool) :
    (spinRotation xyz angle j isDim).isSome = (qubRotation xyz angle).isSome ∧
    ((qubRotation xyz angle).isSome ↔ xyz ∈ ["x", "X", "y", "Y", "z", "Z"]) := by
  constructor
  · simp [spinRotation, qubRotation]
  · simp only [qubRotation, Option.isSome_map, parseAxis]
    split_ifs with h1 h2 h3 <;> simp_all <;> tauto

/-- `spinRotation` is unitary and composes for every documented spin. -/
theorem C44_spinRotation (xyz : String) (j : ℚ) (isDim : Bool) (h : ValidSpin j isDim) (s t : ℝ)
    (U V W : Op (spinArgs j isDim).1) (hU : spinRotation xyz s j isDim = some U)
    (hV : spinRotation xyz t j isDim = some V) (hW : spinRotation xyz (s + t) j isDim = some W) :
    hc U * U = 1 ∧ U * V = W := by
  simp only [spinRotation] at hU hV hW
  cases ha : parseAxis xyz with
  | none => rw [ha] at hU; simp at hU
  | some a =>
    rw [ha] at hU hV hW
    simp only [Option.map_some, Option.some.injEq] at hU hV hW
    have al := C42_spin_algebra j isDim h
    have hherm : (spinAxis a j isDim)ᴴ = spinAxis a j isDim := by
      cases a <;> [exact al.herm_x; exact al.herm_y; exact al.herm_z]
    have move : ∀ r : ℝ, unitaryOp ((r : ℂ) • spinAxis a j isDim) 1 = unitaryOp (spinAxis a j isDim) r := by
      intro r; rw [unitaryOp, unitaryOp]; congr 1; push_cast; module
    rw [move] at hU hV hW
    subst hU; subst hV; subst hW
    exact ⟨(C41_unitary _ hherm s).1, C41_compose _ s t⟩

/-- **C44 (`xGate`).** On any number of qubits at any places the two implementations of the gate (exponentials of the spin
operators, and products of explicit rotation matrices) give the same matrix, with the default `phase = 1`. -/
theorem C44_gate_implementations {D : ℕ} (a : Axis) (angle : ℝ) (qs : List (QPlace D)) :
    rotMat a 1 angle (qs.map QPlace.place) = instantFlip a angle qs := by
  have one : ∀ q : QPlace D, unitaryOp (((1 * angle : ℝ) : ℂ) • emb q.place (spinOfDim a q.place.dim)) 1 =
      emb q.place (axisRotation a angle) := by
    intro q
    have hS : emb q.place (pauli a) * emb q.place (pauli a) = 1 := by
      rw [← emb_mul, show (pauli a * pauli a : Op 2) = 1 from pauli_sq a]; exact emb_one q.place
    have h2 : spinOfDim a q.place.dim = ((1 / 2 : ℂ) • pauli a : Op 2) := spinOfDim_two a
    have : ((1 * angle : ℝ) : ℂ) • emb q.place (spinOfDim a q.place.dim) =
        ((angle / 2 : ℝ) : ℂ) • emb q.place (pauli a) := by
      rw [h2]
      have := emb_smul q.place (1 / 2 : ℂ) (pauli a)
      rw [this, smul_smul]; congr 1; push_cast; ring
    rw [this, unitaryOp_involution _ hS, axisRotation]
    have h3 := emb_sub q.place (((Real.cos (angle / 2) : ℝ) : ℂ) • (1 : Op 2))
      ((Complex.I * ((Real.sin (angle / 2) : ℝ) : ℂ)) • pauli a)
    have h4 := emb_smul q.place ((Real.cos (angle / 2) : ℝ) : ℂ) (1 : Op 2)
    have h5 := emb_smul q.place (Complex.I * ((Real.sin (angle / 2) : ℝ) : ℂ)) (pauli a)
    rw [h3, h4, h5]
    congr 2
    exact (emb_one q.place).symm
  cases qs with
  | nil => rfl
  | cons q rest =>
    simp only [List.map_cons, rotMat, instantFlip, List.foldl_map, one]

/-- With another `phase` the two implementations differ: the explicit one ignores `phase`. -/
theorem C44_gate_phase_ignored :
    ∃ (phase angle : ℝ) (q : QPlace 2), rotMat .z phase angle [q.place] ≠ instantFlip .z angle [q] := by
  refine ⟨0, Real.pi, ⟨1, 1, rfl⟩, ?_⟩
  intro h
  simp only [rotMat, instantFlip, List.foldl_nil, Option.some.injEq, zero_mul, Complex.ofReal_zero, zero_smul] at h
  have h0 : unitaryOp (0 : Op 2) 1 = 1 := by simp [unitaryOp]
  rw [h0] at h
  have : axisRotation .z Real.pi = (1 : Op 2) :=
    emb_injective (QPlace.place (D := 2) ⟨1, 1, rfl⟩) (by norm_num) (h.symm.trans (emb_one _).symm)
  have := congrFun (congrFun this 0) 0
  simp [axisRotation, pauli, sigmaz] at this
  have h2 := congrArg Complex.re this
  simp at h2

/-! ## C47 -/

/-- The action of a superoperator matrix on a density matrix. -/
theorem openGate_action {D : ℕ} (U rho : Op D) : vec2Mat (openGate U * mat2Vec rho) = U * rho * U := by
  rw [openGate]
  rw [C39_prepostSO_default, C39_vec2Mat_mat2Vec]

/-- **C47 (partial).** A gate in an open system maps `rho` to `U rho U`, where `U` is the matrix of the gate for closed
systems; this is `U rho U^dag` for Hermitian `U`.  Missing: every other gate (false, see below). -/
theorem C47_hermitian_gates_partial {D : ℕ} (U rho : Op D) (hU : hc U = U) :
    vec2Mat (openGate U * mat2Vec rho) = U * rho * hc U := by
  rw [openGate_action, hU]

/-- **C47 (negation).** For a unitary gate the open-system action is the closed-system one exactly when `U` is Hermitian. -/
theorem C47_agrees_iff_hermitian {D : ℕ} (U : Op D) (hU : hc U * U = 1) :
    (∀ rho, vec2Mat (openGate U * mat2Vec rho) = U * rho * hc U) ↔ hc U = U := by
  constructor
  · intro h
    have := h 1
    rw [openGate_action, mul_one] at this
    have h2 := congrArg (fun X => hc U * X) this
    simp only [← Matrix.mul_assoc, hU, Matrix.one_mul] at h2
    exact h2.symm
  · intro h rho; exact C47_hermitian_gates_partial U rho h

/-- **C47 (negation for rotations).** A single-qubit rotation acts correctly in an open system only if it is `1` or `-1`. -/
theorem C47_rotations_wrong (a : Axis) (angle : ℝ) :
    (∀ rho, vec2Mat (openGate (axisRotation a angle) * mat2Vec rho) =
      axisRotation a angle * rho * hc (axisRotation a angle)) ↔
    axisRotation a angle = 1 ∨ axisRotation a angle = -1 := by
  rw [C47_agrees_iff_hermitian _ (C44_unitary a angle).1]
  constructor
  · intro h
    have hs : Real.sin (angle / 2) = 0 := by
      have e : hc (axisRotation a angle) - axisRotation a angle =
          (2 * Complex.I * ((Real.sin (angle / 2) : ℝ) : ℂ)) • pauli a := by
        rw [hc_eq, axisRotation, conjTranspose_sub, conjTranspose_smul, conjTranspose_smul, conjTranspose_one, pauli_herm]
        simp [-Complex.ofReal_cos, -Complex.ofReal_sin]
        module
      rw [h, sub_self] at e
      have e2 := congrArg (fun X : Op 2 => X * pauli a) e
      simp only [Matrix.zero_mul, Matrix.smul_mul, pauli_sq] at e2
      have e3 := congrFun (congrFun e2 0) 0
      simp [-Complex.ofReal_sin] at e3
      exact e3
    have hcos : Real.cos (angle / 2) = 1 ∨ Real.cos (angle / 2) = -1 := by
      have := Real.sin_sq_add_cos_sq (angle / 2)
      rw [hs] at this
      have : Real.cos (angle / 2) ^ 2 = 1 := by nlinarith
      have h2 : (Real.cos (angle / 2) - 1) * (Real.cos (angle / 2) + 1) = 0 := by linear_combination this
      rcases mul_eq_zero.mp h2 with h3 | h3
      · left; linarith
      · right; linarith
    rcases hcos with h1 | h1
    · left; rw [axisRotation, h1, hs]; simp
    · right; rw [axisRotation, h1, hs]; simp
  · rintro (h | h) <;> rw [h] <;> simp [hc_eq]

/-- Concrete witness: the x gate with `angle = pi` in an open system turns a density matrix of trace one into one of trace
minus one. -/
theorem C47_trace_witness : (vec2Mat (openGate (axisRotation .x Real.pi) * mat2Vec (!![1, 0; 0, 0] : Op 2))).trace = -1 := by
  rw [openGate_action]
  have : axisRotation .x Real.pi = (-Complex.I) • sigmax := by
    simp [axisRotation, pauli]
  rw [this]
  simp [sigmax, Matrix.trace, Fin.sum_univ_two]

/-- Non-trivial instances. -/
example : qubRotation "X" 1 = some (axisRotation .x 1) ∧ qubRotation "w" 1 = none := by
  constructor <;> simp [qubRotation, parseAxis]
example : ∃ U, rotMat .x 1 1 ([(⟨1, 2, rfl⟩ : QPlace 4), ⟨2, 1, rfl⟩].map QPlace.place) = some U := ⟨_, rfl⟩
example : hc (sigmax) = sigmax ∧ hc sigmax * sigmax = 1 := by
  rw [hc_eq]; exact ⟨pauli_herm .x, by rw [show sigmaxᴴ = sigmax from pauli_herm .x]; exact pauli_sq .x⟩

end Verif.Toolbox
