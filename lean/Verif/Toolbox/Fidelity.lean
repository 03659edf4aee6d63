import Verif.Toolbox.StateProps
import Mathlib.Analysis.Matrix.HermitianFunctionalCalculus

/-!
# C80: the fidelity of mixed states

`_fidelityTest` (`functions.py:188-199`) is the fidelity of two density matrices, the square of the trace of
`sqrt(sqrt(rho) sigma sqrt(rho))`.  Simplifications: exact numbers; `scipy.linalg.sqrtm` is the positive square root of a positive
semidefinite matrix (what it returns for other matrices is not described).
-/
namespace Verif.Toolbox
open Matrix
open scoped ComplexOrder

variable {d : ℕ}

open scoped MatrixOrder in
/-- `scipy.linalg.sqrtm`: the positive square root of a positive semidefinite matrix. -/
noncomputable def sqrtm (A : Op d) : Op d := CFC.sqrt A

/-- `_fidelityTest` (`functions.py:188-199`).  `sqrtm` refuses a matrix that is not square, and the product `sqrt(rho) @ ket @ sqrt(rho)`
does not fit (`none`), except in dimension one. -/
noncomputable def fidelityTest (s1 s2 : QState d) : Option ℝ :=
  if s1.nonSquare || s2.nonSquare then none
  else
    let matsqrt := sqrtm s1.asMat
    some (((sqrtm (matsqrt * s2.asMat * matsqrt)).trace) ^ 2).re

/-! ### Square roots -/

theorem sqrtm_pos (A : Op d) : (sqrtm A).PosSemidef := by
  open scoped MatrixOrder in
  exact (CFC.sqrt_nonneg A).posSemidef

theorem sqrtm_sq {A : Op d} (h : A.PosSemidef) : sqrtm A * sqrtm A = A := by
  open scoped MatrixOrder in
  exact CFC.sqrt_mul_sqrt_self A h.nonneg

theorem sqrtm_unique {A S : Op d} (hS : S.PosSemidef) (h : S * S = A) : sqrtm A = S := by
  open scoped MatrixOrder in
  exact CFC.sqrt_unique h hS.nonneg

theorem trace_real {A : Op d} (h : A.PosSemidef) : ∃ r : ℝ, A.trace = r ∧ 0 ≤ r := by
  have h0 := h.trace_nonneg
  rw [Complex.nonneg_iff] at h0
  exact ⟨A.trace.re, Complex.ext rfl (by simp [← h0.2]), h0.1⟩

theorem sandwich_pos {A S : Op d} (hA : A.PosSemidef) (hS : S.PosSemidef) : (S * A * S).PosSemidef := by
  have := hA.mul_mul_conjTranspose_same S
  rwa [hS.1.eq] at this

/-- Generalised inverse of a positive matrix. -/
theorem exists_ginv {P : Op d} (hP : P.PosSemidef) : ∃ G : Op d, Gᴴ = G ∧ G * P * P = P ∧ G * P * G = G ∧ P * P * G = P := by
  obtain ⟨U, D, hU, hD⟩ : ∃ (U : Op d) (D : Fin d → ℝ), Uᴴ * U = 1 ∧ P = U * diagonal (fun i => (D i : ℂ)) * Uᴴ := by
    refine ⟨hP.1.eigenvectorUnitary, hP.1.eigenvalues, ?_, ?_⟩
    · exact (Unitary.mem_iff.1 hP.1.eigenvectorUnitary.2).1
    · conv_lhs => rw [hP.1.spectral_theorem, Unitary.conjStarAlgAut_apply]
      rfl
  refine ⟨U * diagonal (fun i => ((D i)⁻¹ : ℂ)) * Uᴴ, ?_, ?_, ?_, ?_⟩
  · rw [conjTranspose_mul, conjTranspose_mul, conjTranspose_conjTranspose, diagonal_conjTranspose, Matrix.mul_assoc]
    congr 3
    ext i
    simp
  all_goals
    rw [hD]
    simp only [Matrix.mul_assoc]
    simp only [← Matrix.mul_assoc Uᴴ U, hU, Matrix.one_mul]
    simp only [← Matrix.mul_assoc (diagonal _) (diagonal _), diagonal_mul_diagonal]
    congr 3
    ext i
    by_cases h : (D i : ℂ) = 0
    · simp [h]
    · field_simp

/-- The polar decomposition of a matrix `A` with `P = |A|`: a partial isometry `W`. -/
theorem exists_polar {A P : Op d} (hP : P.PosSemidef) (h : P * P = Aᴴ * A) :
    ∃ W : Op d, Wᴴ * A = P ∧ W * P = A ∧ (W * Wᴴ) * (W * Wᴴ) = W * Wᴴ ∧ (W * P * Wᴴ) * (W * P * Wᴴ) = A * Aᴴ ∧
      (W * P * Wᴴ).trace = P.trace := by
  obtain ⟨G, h1, h2, h3, h4⟩ := exists_ginv hP
  have hPP : Pᴴ = P := hP.1
  have hWA : (A * G)ᴴ * A = P := by
    rw [conjTranspose_mul, h1, Matrix.mul_assoc, ← h, ← Matrix.mul_assoc, h2]
  have hWW : (A * G)ᴴ * (A * G) = P * G := by
    rw [← Matrix.mul_assoc, hWA]
  have hGP : G * P = P * G := by
    have := congrArg conjTranspose hWW
    rw [conjTranspose_mul, conjTranspose_conjTranspose, hWW, conjTranspose_mul, h1, hPP] at this
    exact this.symm
  have hWP : A * G * P = A := by
    have h0 : (A - A * G * P)ᴴ * (A - A * G * P) = 0 := by
      have e1 : (A - A * G * P) = A * (1 - G * P) := by rw [Matrix.mul_sub, Matrix.mul_one, Matrix.mul_assoc]
      rw [e1, conjTranspose_mul, Matrix.mul_assoc, ← Matrix.mul_assoc Aᴴ A, ← h]
      have : P * P * (1 - G * P) = 0 := by
        rw [Matrix.mul_sub, Matrix.mul_one, ← Matrix.mul_assoc, h4, sub_self]
      rw [this, Matrix.mul_zero]
    have := (Matrix.conjTranspose_mul_self_eq_zero).1 h0
    exact (sub_eq_zero.1 this).symm
  have hPGP : P * G * P = P := by rw [Matrix.mul_assoc, hGP, ← Matrix.mul_assoc, h4]
  refine ⟨A * G, hWA, hWP, ?_, ?_, ?_⟩
  · rw [Matrix.mul_assoc (A * G) _ _, ← Matrix.mul_assoc (A * G)ᴴ, hWW, ← Matrix.mul_assoc, Matrix.mul_assoc A G,
      ← Matrix.mul_assoc G P G, h3]
  · have : (A * G * P * (A * G)ᴴ) * (A * G * P * (A * G)ᴴ) = (A * G * P) * ((A * G)ᴴ * (A * G) * P) * (A * G)ᴴ := by
      simp only [Matrix.mul_assoc]
    rw [this, hWW, hPGP, hWP, Matrix.mul_assoc, ← conjTranspose_conjTranspose (P * (A * G)ᴴ), conjTranspose_mul,
      conjTranspose_conjTranspose, hPP, hWP]
  · rw [Matrix.trace_mul_comm, ← Matrix.mul_assoc, hWW, hPGP]

/-! ### The fidelity -/

theorem fidelityTest_mat (rho sigma : Op d) : fidelityTest (.mat rho) (.mat sigma) =
    some (((sqrtm (sqrtm rho * sigma * sqrtm rho)).trace) ^ 2).re := rfl

/-- With `A = sqrt(sigma) sqrt(rho)`. -/
theorem root_data {rho sigma : Op d} (hr : rho.PosSemidef) (hs : sigma.PosSemidef) :
    let A := sqrtm sigma * sqrtm rho
    let P := sqrtm (sqrtm rho * sigma * sqrtm rho)
    P.PosSemidef ∧ P * P = Aᴴ * A ∧ A * Aᴴ = sqrtm sigma * rho * sqrtm sigma := by
  refine ⟨sqrtm_pos _, ?_, ?_⟩
  · rw [sqrtm_sq (sandwich_pos hs (sqrtm_pos rho)), conjTranspose_mul, (sqrtm_pos rho).1.eq, (sqrtm_pos sigma).1.eq]
    conv_lhs => rw [← sqrtm_sq hs]
    simp only [Matrix.mul_assoc]
  · rw [conjTranspose_mul, (sqrtm_pos rho).1.eq, (sqrtm_pos sigma).1.eq]
    conv_rhs => rw [← sqrtm_sq hr]
    simp only [Matrix.mul_assoc]

/-- **C80 (kets).** Unlike `fidelityPure` the function takes density matrices only. -/
theorem C80_kets (hd : d ≠ 1) (k : Ket d) (s : QState d) : fidelityTest (.ket k) s = none ∧ fidelityTest s (.ket k) = none := by
  simp [fidelityTest, QState.nonSquare, hd]

/-- **C80 (symmetry).** -/
theorem C80_symmetric {rho sigma : Op d} (hr : rho.PosSemidef) (hs : sigma.PosSemidef) :
    fidelityTest (.mat rho) (.mat sigma) = fidelityTest (.mat sigma) (.mat rho) := by
  obtain ⟨h1, h2, h3⟩ := root_data hr hs
  obtain ⟨W, -, -, -, hW, htr⟩ := exists_polar h1 h2
  rw [fidelityTest_mat, fidelityTest_mat, ← h3, sqrtm_unique (h1.mul_mul_conjTranspose_same W) hW, htr]

theorem trace_sq_le {P : Op d} (hP : P.PosSemidef) : ((P * P).trace).re ≤ ((P.trace) ^ 2).re := by
  obtain ⟨r, hr, -, hle⟩ := trace_mul_bounds hP hP
  obtain ⟨p, hp, -⟩ := trace_real hP
  rw [hr, hp]
  rw [hp] at hle
  simp only [Complex.ofReal_re] at hle ⊢
  rw [← Complex.ofReal_pow, Complex.ofReal_re, sq]
  exact hle

/-- **C80 (lower bound).** The value of `fidelityPure` never exceeds the fidelity. -/
theorem C80_ge_pure {rho sigma : Op d} (hr : rho.PosSemidef) (hs : sigma.PosSemidef) :
    ∃ f, fidelityTest (.mat rho) (.mat sigma) = some f ∧ fidelityPure (.mat rho) (.mat sigma) ≤ f := by
  refine ⟨_, fidelityTest_mat rho sigma, ?_⟩
  refine le_trans (le_of_eq ?_) (trace_sq_le (sqrtm_pos _))
  rw [sqrtm_sq (sandwich_pos hs (sqrtm_pos rho))]
  show ((rho * sigma).trace).re = _
  conv_lhs => rw [← sqrtm_sq hr]
  rw [Matrix.mul_assoc, Matrix.trace_mul_comm]

theorem outer_eq (k : Ket d) : outerProd k = k * kᴴ := by simp [outerProd, hc_eq]

theorem inner_mat (v : Ket d) : vᴴ * v = ((∑ i, ‖v i 0‖ ^ 2 : ℝ) : ℂ) • (1 : Matrix (Fin 1) (Fin 1) ℂ) := by
  ext i j
  obtain rfl : i = 0 := Subsingleton.elim _ _
  obtain rfl : j = 0 := Subsingleton.elim _ _
  simp only [Matrix.mul_apply, Matrix.conjTranspose_apply, Matrix.smul_apply, Matrix.one_apply_eq, smul_eq_mul, mul_one]
  push_cast
  apply Finset.sum_congr rfl
  intro x _
  rw [mul_comm, Complex.star_def, Complex.mul_conj, Complex.normSq_eq_norm_sq]
  push_cast; rfl

/-- The square root of a matrix of rank one. -/
theorem sqrtm_rank_one (v : Ket d) : ((sqrtm (v * vᴴ)).trace) ^ 2 = ((∑ i, ‖v i 0‖ ^ 2 : ℝ) : ℂ) := by
  set n : ℝ := ∑ i, ‖v i 0‖ ^ 2 with hn
  have hn0 : 0 ≤ n := Finset.sum_nonneg fun i _ => by positivity
  have htr : (v * vᴴ).trace = (n : ℂ) := by
    rw [Matrix.trace_mul_comm, inner_mat, ← hn, Matrix.trace_smul]
    simp
  have hvv : (v * vᴴ) * (v * vᴴ) = (n : ℂ) • (v * vᴴ) := by
    rw [Matrix.mul_assoc, ← Matrix.mul_assoc vᴴ, inner_mat, ← hn, Matrix.smul_mul, Matrix.one_mul, Matrix.mul_smul]
  by_cases h0 : n = 0
  · have hz : v * vᴴ = 0 := by
      have := (Matrix.posSemidef_self_mul_conjTranspose v).trace_eq_zero_iff.1 (by rw [htr, h0]; simp)
      exact this
    rw [hz, sqrtm_unique (S := 0) Matrix.PosSemidef.zero (by simp), h0]
    simp
  · have hs : 0 < Real.sqrt n := Real.sqrt_pos.2 (lt_of_le_of_ne hn0 (Ne.symm h0))
    have hss : (Real.sqrt n) * (Real.sqrt n) = n := Real.mul_self_sqrt hn0
    have hS : sqrtm (v * vᴴ) = (((Real.sqrt n)⁻¹ : ℝ) : ℂ) • (v * vᴴ) := by
      apply sqrtm_unique
      · apply (Matrix.posSemidef_self_mul_conjTranspose v).smul
        rw [Complex.zero_le_real]
        positivity
      · rw [Matrix.smul_mul, Matrix.mul_smul, hvv, smul_smul, smul_smul, ← Complex.ofReal_mul, ← Complex.ofReal_mul]
        have : (Real.sqrt n)⁻¹ * (Real.sqrt n)⁻¹ * n = 1 := by
          rw [← mul_inv, hss, inv_mul_cancel₀ h0]
        rw [this, Complex.ofReal_one, one_smul]
    rw [hS, Matrix.trace_smul, htr, smul_eq_mul, ← Complex.ofReal_mul, ← Complex.ofReal_pow]
    congr 1
    rw [mul_pow, inv_pow, Real.sq_sqrt hn0]
    field_simp

/-- **C80 (pure states).** When one of the states is pure, the fidelity is what `fidelityPure` computes. -/
theorem C80_pure {rho : Op d} (hr : rho.PosSemidef) (k : Ket d) (hk : IsUnit k) :
    fidelityTest (.mat rho) (.mat (outerProd k)) = some (fidelityPure (.mat rho) (.mat (outerProd k))) ∧
    fidelityTest (.mat (outerProd k)) (.mat rho) = some (fidelityPure (.mat (outerProd k)) (.mat rho)) := by
  have h : fidelityTest (.mat rho) (.mat (outerProd k)) = some (fidelityPure (.mat rho) (.mat (outerProd k))) := by
    rw [fidelityTest_mat]
    congr 1
    have e : sqrtm rho * outerProd k * sqrtm rho = (sqrtm rho * k) * (sqrtm rho * k)ᴴ := by
      rw [conjTranspose_mul, (sqrtm_pos rho).1.eq, outer_eq]
      simp only [Matrix.mul_assoc]
    rw [e, sqrtm_rank_one, Complex.ofReal_re]
    show _ = ((rho * outerProd k).trace).re
    have : ((sqrtm rho * k)ᴴ * (sqrtm rho * k)).trace = (rho * outerProd k).trace := by
      rw [outer_eq, ← Matrix.mul_assoc rho, Matrix.trace_mul_comm (rho * k), conjTranspose_mul, (sqrtm_pos rho).1.eq]
      conv_rhs => rw [← sqrtm_sq hr]
      simp only [Matrix.mul_assoc]
    rw [← this, inner_mat, Matrix.trace_smul, Matrix.trace_one, Fintype.card_fin, smul_eq_mul, Nat.cast_one, mul_one, Complex.ofReal_re]
  refine ⟨h, ?_⟩
  rw [C80_symmetric (outerProd_density k hk).pos hr, h, C46_fidelity_symmetric]

/-- **C80 (unitary invariance).** -/
theorem C80_unitary {rho sigma U : Op d} (hr : rho.PosSemidef) (hs : sigma.PosSemidef) (hU : Uᴴ * U = 1) :
    fidelityTest (.mat (U * rho * Uᴴ)) (.mat (U * sigma * Uᴴ)) = fidelityTest (.mat rho) (.mat sigma) := by
  have key : ∀ {A : Op d}, A.PosSemidef → sqrtm (U * A * Uᴴ) = U * sqrtm A * Uᴴ := by
    intro A hA
    apply sqrtm_unique ((sqrtm_pos A).mul_mul_conjTranspose_same U)
    have : (U * sqrtm A * Uᴴ) * (U * sqrtm A * Uᴴ) = U * sqrtm A * (Uᴴ * U) * sqrtm A * Uᴴ := by
      simp only [Matrix.mul_assoc]
    rw [this, hU, Matrix.mul_one, Matrix.mul_assoc U, sqrtm_sq hA]
  rw [fidelityTest_mat, fidelityTest_mat, key hr]
  have : U * sqrtm rho * Uᴴ * (U * sigma * Uᴴ) * (U * sqrtm rho * Uᴴ) = U * (sqrtm rho * sigma * sqrtm rho) * Uᴴ := by
    have : U * sqrtm rho * Uᴴ * (U * sigma * Uᴴ) * (U * sqrtm rho * Uᴴ) =
        U * sqrtm rho * (Uᴴ * U) * sigma * (Uᴴ * U) * sqrtm rho * Uᴴ := by simp only [Matrix.mul_assoc]
    rw [this, hU]
    simp only [Matrix.mul_assoc, Matrix.one_mul]
  rw [this, key (sandwich_pos hs (sqrtm_pos rho)), Matrix.trace_mul_comm, ← Matrix.mul_assoc, hU, Matrix.one_mul]

theorem frob_expand (X Y : Op d) : ((X - Y)ᴴ * (X - Y)).trace = (Xᴴ * X).trace + (Yᴴ * Y).trace - (Yᴴ * X).trace - (Xᴴ * Y).trace := by
  rw [conjTranspose_sub, Matrix.sub_mul, Matrix.mul_sub, Matrix.mul_sub]
  simp only [Matrix.trace_sub]
  ring

/-- **C80 (range).** The fidelity of density matrices lies between zero and one, and is one exactly for equal states. -/
theorem C80_range {rho sigma : Op d} (hr : IsDensity rho) (hs : IsDensity sigma) :
    ∃ f, fidelityTest (.mat rho) (.mat sigma) = some f ∧ 0 ≤ f ∧ f ≤ 1 ∧ (f = 1 ↔ rho = sigma) := by
  refine ⟨_, fidelityTest_mat rho sigma, ?_⟩
  obtain ⟨h1, h2, -⟩ := root_data hr.pos hs.pos
  set P := sqrtm (sqrtm rho * sigma * sqrtm rho) with hP
  obtain ⟨W, w1, w2, w3, -, -⟩ := exists_polar h1 h2
  obtain ⟨p, hp, hp0⟩ := trace_real h1
  have hf : (P.trace ^ 2).re = p ^ 2 := by rw [hp, ← Complex.ofReal_pow, Complex.ofReal_re]
  rw [hf]
  -- the defect of the partial isometry
  set E := 1 - W * Wᴴ with hE
  have hEh : Eᴴ = E := by rw [hE, conjTranspose_sub, conjTranspose_one, conjTranspose_mul, conjTranspose_conjTranspose]
  have hEE : E * E = E := by
    rw [hE, Matrix.sub_mul, Matrix.mul_sub, Matrix.mul_sub, Matrix.mul_one, Matrix.one_mul, Matrix.mul_one, w3]
    simp
  set X := sqrtm rho with hX
  set S := sqrtm sigma with hS
  have hXh : Xᴴ = X := (sqrtm_pos rho).1
  have hSh : Sᴴ = S := (sqrtm_pos sigma).1
  have hXX : X * X = rho := sqrtm_sq hr.pos
  have hSS : S * S = sigma := sqrtm_sq hs.pos
  have t1 : ((X - S * W)ᴴ * (X - S * W)).trace + ((E * S)ᴴ * (E * S)).trace = 2 - 2 * (p : ℂ) := by
    have e1 : (Xᴴ * X).trace = 1 := by rw [hXh, hXX, hr.tr]
    have e2 : ((S * W)ᴴ * X).trace = p := by
      rw [conjTranspose_mul, hSh, Matrix.mul_assoc, w1, hp]
    have e3 : (Xᴴ * (S * W)).trace = p := by
      have : Xᴴ * (S * W) = ((S * W)ᴴ * X)ᴴ := by rw [conjTranspose_mul, conjTranspose_conjTranspose]
      rw [this, Matrix.trace_conjTranspose, e2]
      simp
    have e4 : ((S * W)ᴴ * (S * W)).trace + ((E * S)ᴴ * (E * S)).trace = 1 := by
      rw [conjTranspose_mul, conjTranspose_mul, hSh, hEh, Matrix.mul_assoc S E, ← Matrix.mul_assoc E E, hEE]
      have : (Wᴴ * S * (S * W)).trace = (S * (W * Wᴴ) * S).trace := by
        rw [Matrix.mul_assoc, Matrix.trace_mul_comm Wᴴ]
        rw [show S * (W * Wᴴ) * S = (S * W * Wᴴ) * S by simp only [Matrix.mul_assoc], Matrix.trace_mul_comm (S * W * Wᴴ) S]
        simp only [Matrix.mul_assoc]
      rw [this, ← Matrix.trace_add, hE, Matrix.sub_mul, Matrix.one_mul, Matrix.mul_sub, hSS, ← Matrix.mul_assoc S (W * Wᴴ) S]
      simp [hs.tr]
    rw [frob_expand, e1, e2, e3]
    linear_combination e4
  rw [trace_conjTranspose_mul, trace_conjTranspose_mul] at t1
  have t2 : frobSq (X - S * W) + frobSq (E * S) = 2 - 2 * p := by exact_mod_cast t1
  have n1 := frobSq_nonneg (X - S * W)
  have n2 := frobSq_nonneg (E * S)
  have hp1 : p ≤ 1 := by linarith
  refine ⟨by positivity, by nlinarith, ?_, ?_⟩
  · intro h
    have hp2 : p = 1 := by nlinarith
    have z1 : frobSq (X - S * W) = 0 := by linarith
    have z2 : frobSq (E * S) = 0 := by linarith
    have z1' : X - S * W = 0 := (Matrix.trace_conjTranspose_mul_self_eq_zero_iff).1 (by rw [trace_conjTranspose_mul, z1]; simp)
    have z2' : E * S = 0 := (Matrix.trace_conjTranspose_mul_self_eq_zero_iff).1 (by rw [trace_conjTranspose_mul, z2]; simp)
    have e1 : rho = S * (W * Wᴴ) * S := by
      rw [← hXX]
      nth_rewrite 2 [← hXh]
      rw [sub_eq_zero.1 z1', conjTranspose_mul, hSh]
      simp only [Matrix.mul_assoc]
    have e2 : W * Wᴴ * S = S := by
      rw [hE, Matrix.sub_mul, Matrix.one_mul, sub_eq_zero] at z2'
      exact z2'.symm
    rw [e1, Matrix.mul_assoc, e2, hSS]
  · intro h
    have : P = rho := by
      rw [hP]
      apply sqrtm_unique hr.pos
      rw [← h]
      conv_rhs => rw [← hXX]
      conv_lhs => rw [← hXX]
      simp only [Matrix.mul_assoc]
    rw [this, hr.tr] at hp
    have : p = 1 := by exact_mod_cast hp.symm
    rw [this]; norm_num

/-- **C80 (zero).** The fidelity vanishes exactly for states with orthogonal supports. -/
theorem C80_zero_iff {rho sigma : Op d} (hr : rho.PosSemidef) (hs : sigma.PosSemidef) :
    fidelityTest (.mat rho) (.mat sigma) = some 0 ↔ rho * sigma = 0 := by
  rw [fidelityTest_mat, Option.some_inj]
  obtain ⟨h1, h2, -⟩ := root_data hr hs
  set P := sqrtm (sqrtm rho * sigma * sqrtm rho) with hP
  obtain ⟨p, hp, hp0⟩ := trace_real h1
  rw [hp, ← Complex.ofReal_pow, Complex.ofReal_re]
  have hXh : (sqrtm rho)ᴴ = sqrtm rho := (sqrtm_pos rho).1
  have hSh : (sqrtm sigma)ᴴ = sqrtm sigma := (sqrtm_pos sigma).1
  constructor
  · intro h
    have : p = 0 := by nlinarith
    have hPz : P = 0 := h1.trace_eq_zero_iff.1 (by rw [hp, this]; simp)
    rw [hPz, Matrix.mul_zero] at h2
    have hA : sqrtm sigma * sqrtm rho = 0 := Matrix.conjTranspose_mul_self_eq_zero.1 h2.symm
    have hB : sqrtm rho * sqrtm sigma = 0 := by
      have := congrArg conjTranspose hA
      rwa [conjTranspose_mul, hXh, hSh, conjTranspose_zero] at this
    calc rho * sigma = sqrtm rho * (sqrtm rho * sqrtm sigma) * sqrtm sigma := by
          conv_lhs => rw [← sqrtm_sq hr, ← sqrtm_sq hs]
          simp only [Matrix.mul_assoc]
      _ = 0 := by rw [hB]; simp
  · intro h
    have h3 : ((sqrtm rho * sigma * sqrtm rho)).trace = 0 := by
      rw [Matrix.trace_mul_comm, ← Matrix.mul_assoc, sqrtm_sq hr, h, Matrix.trace_zero]
    have h4 : sqrtm rho * sigma * sqrtm rho = 0 := (sandwich_pos hs (sqrtm_pos rho)).trace_eq_zero_iff.1 h3
    have hPz : P = 0 := by
      rw [hP, h4]
      exact sqrtm_unique Matrix.PosSemidef.zero (by simp)
    rw [hPz, Matrix.trace_zero] at hp
    have : p = 0 := by exact_mod_cast hp.symm
    rw [this]; norm_num

/-- The completely mixed state of a qubit. -/
noncomputable def mixedQubit : Op 2 := diagonal fun _ => (1 / 2 : ℂ)

theorem mixedQubit_density : IsDensity mixedQubit := by
  constructor
  · exact Matrix.PosSemidef.diagonal fun i => by
      simp only [Pi.zero_apply]
      rw [show (1 / 2 : ℂ) = ((1 / 2 : ℝ) : ℂ) by push_cast; rfl, Complex.zero_le_real]
      norm_num
  · simp [mixedQubit, Matrix.trace]

/-- For mixed states the two differ: `fidelityPure` of the completely mixed qubit with itself is one half. -/
theorem C80_mixed_differs : fidelityTest (.mat mixedQubit) (.mat mixedQubit) = some 1 ∧
    fidelityPure (.mat mixedQubit) (.mat mixedQubit) = 1 / 2 := by
  constructor
  · obtain ⟨f, h1, -, -, h2⟩ := C80_range mixedQubit_density mixedQubit_density
    rw [h1, h2.2 rfl]
  · simp [fidelityPure, QState.asMat, mixedQubit, Matrix.trace]

/-- Orthogonal pure states have fidelity zero, in either order. -/
example : fidelityTest (.mat !![(1 : ℂ), 0; 0, 0]) (.mat !![(0 : ℂ), 0; 0, 1]) = some 0 := by
  have h : ∀ a b : ℝ, 0 ≤ a → 0 ≤ b → (!![(a : ℂ), 0; 0, (b : ℂ)] : Op 2).PosSemidef := by
    intro a b ha hb
    have : (!![(a : ℂ), 0; 0, (b : ℂ)] : Op 2) = diagonal ![(a : ℂ), (b : ℂ)] := by
      ext i j; fin_cases i <;> fin_cases j <;> simp
    rw [this]
    apply Matrix.PosSemidef.diagonal
    intro i
    fin_cases i <;> simpa
  rw [C80_zero_iff (by simpa using h 1 0 (by norm_num) le_rfl) (by simpa using h 0 1 le_rfl (by norm_num))]
  ext i j; fin_cases i <;> fin_cases j <;> simp

/-- Against the completely mixed qubit every pure state has the value `fidelityPure` gives. -/
example (k : Ket 2) (hk : IsUnit k) : fidelityTest (.mat mixedQubit) (.mat (outerProd k)) = some (1 / 2) := by
  rw [(C80_pure mixedQubit_density.pos k hk).1]
  congr 1
  have h : mixedQubit = (1 / 2 : ℂ) • (1 : Op 2) := by
    ext i j; fin_cases i <;> fin_cases j <;> simp [mixedQubit]
  show ((mixedQubit * outerProd k).trace).re = _
  rw [h, Matrix.smul_mul, Matrix.one_mul, Matrix.trace_smul, (outerProd_density k hk).tr]
  norm_num

end Verif.Toolbox
