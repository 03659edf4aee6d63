import Verif.Toolbox.Mixed
import Verif.Toolbox.Positivity
import Mathlib.LinearAlgebra.Matrix.Charpoly.Coeff

/-!
# C59: `traceDistance`
-/
namespace Verif.Toolbox
open Matrix
open scoped ComplexOrder

/-! ## Model -/

/-- `np.sum(np.sqrt(np.abs(lina.eig(hc(D) @ D)[0])))`, for matrices of any shape. Simplification: the numerical eigenvalues are the
roots of the characteristic polynomial with multiplicity. -/
noncomputable def traceNorm {m n : Type} [Fintype m] [Fintype n] [DecidableEq n] (D : Matrix m n ℂ) : ℝ :=
  ((Dᴴ * D).charpoly.roots.map fun v => Real.sqrt ‖v‖).sum

/-- `traceDistance(A, B)` (`functions.py:269-309`); the code does not look at the shapes, so kets are accepted as well. -/
noncomputable def traceDistance {m n : ℕ} (A B : Matrix (Fin m) (Fin n) ℂ) : ℝ :=
  1 / 2 * ((hc (A - B) * (A - B)).charpoly.roots.map fun v => Real.sqrt ‖v‖).sum

theorem traceDistance_eq {m n : ℕ} (A B : Matrix (Fin m) (Fin n) ℂ) : traceDistance A B = 1 / 2 * traceNorm (A - B) := rfl

/-! ## The trace norm -/

section
variable {ι : Type} [Fintype ι] [DecidableEq ι]

theorem traceNorm_of_charpoly {m : Type} [Fintype m] (D : Matrix m ι ℂ) (f : ι → ℝ)
    (h : (Dᴴ * D).charpoly = ∏ i, (Polynomial.X - Polynomial.C ((f i : ℝ) : ℂ))) : traceNorm D = ∑ i, Real.sqrt |f i| := by
  have hr : (∏ i, (Polynomial.X - Polynomial.C ((f i : ℝ) : ℂ))).roots = Finset.univ.val.map fun i => ((f i : ℝ) : ℂ) := by
    have := Polynomial.roots_multiset_prod_X_sub_C (Finset.univ.val.map fun i => ((f i : ℝ) : ℂ))
    rwa [Multiset.map_map] at this
  rw [traceNorm, h, hr, Multiset.map_map]
  simp

/-- The trace norm is the sum of the singular values. -/
theorem traceNorm_singular {m : Type} [Fintype m] (D : Matrix m ι ℂ) :
    traceNorm D = ∑ i, Real.sqrt ((isHermitian_conjTranspose_mul_self D).eigenvalues i) := by
  rw [traceNorm_of_charpoly D (isHermitian_conjTranspose_mul_self D).eigenvalues (isHermitian_conjTranspose_mul_self D).charpoly_eq]
  refine Finset.sum_congr rfl fun i _ => ?_
  rw [abs_of_nonneg ((posSemidef_conjTranspose_mul_self D).eigenvalues_nonneg i)]

theorem traceNorm_nonneg {m : Type} [Fintype m] (D : Matrix m ι ℂ) : 0 ≤ traceNorm D := by
  rw [traceNorm_singular]
  exact Finset.sum_nonneg fun i _ => Real.sqrt_nonneg _

theorem traceNorm_eq_zero {m : Type} [Fintype m] (D : Matrix m ι ℂ) : traceNorm D = 0 ↔ D = 0 := by
  constructor
  · intro h
    rw [traceNorm_singular, Finset.sum_eq_zero_iff_of_nonneg (fun i _ => Real.sqrt_nonneg _)] at h
    have h0 : (isHermitian_conjTranspose_mul_self D).eigenvalues = 0 := by
      funext i
      have := h i (Finset.mem_univ i)
      rwa [Real.sqrt_eq_zero ((posSemidef_conjTranspose_mul_self D).eigenvalues_nonneg i)] at this
    rw [IsHermitian.eigenvalues_eq_zero_iff] at h0
    exact conjTranspose_mul_self_eq_zero.mp h0
  · rintro rfl
    have : ((0 : Matrix m ι ℂ)ᴴ * (0 : Matrix m ι ℂ)).charpoly = ∏ i : ι, (Polynomial.X - Polynomial.C (((0 : ℝ) : ℝ) : ℂ)) := by
      simp [charpoly_zero]
    rw [traceNorm_of_charpoly _ (fun _ => 0) this]
    simp

/-- Multiplying by isometries from the left and unitaries from the right changes nothing. -/
theorem traceNorm_unitary {m m' : Type} [Fintype m] [Fintype m'] [DecidableEq m] (V : Matrix m' m ℂ) (hV : Vᴴ * V = 1)
    (W : Matrix ι ι ℂ) (hW : Wᴴ * W = 1) (D : Matrix m ι ℂ) : traceNorm (V * D * W) = traceNorm D := by
  have h1 : (V * D * W)ᴴ * (V * D * W) = Wᴴ * (Dᴴ * D * W) := by
    rw [conjTranspose_mul, conjTranspose_mul]
    calc Wᴴ * (Dᴴ * Vᴴ) * (V * D * W) = Wᴴ * (Dᴴ * (Vᴴ * V) * D * W) := by simp only [Matrix.mul_assoc]
      _ = _ := by rw [hV, Matrix.mul_one]
  have h2 : W * Wᴴ = 1 := mul_eq_one_comm.mp hW
  rw [traceNorm, h1, charpoly_mul_comm, Matrix.mul_assoc, h2, Matrix.mul_one, traceNorm]

theorem traceNorm_neg {m : Type} [Fintype m] (D : Matrix m ι ℂ) : traceNorm (-D) = traceNorm D := by
  rw [traceNorm, conjTranspose_neg, Matrix.neg_mul, Matrix.mul_neg, neg_neg, traceNorm]

/-! ### Hermitian matrices -/

/-- the diagonalisation, in plain matrices -/
theorem exists_diag {D : Matrix ι ι ℂ} (hD : D.IsHermitian) : ∃ U : Matrix ι ι ℂ, Uᴴ * U = 1 ∧ U * Uᴴ = 1 ∧
    D = U * diagonal (fun i => ((hD.eigenvalues i : ℝ) : ℂ)) * Uᴴ := by
  refine ⟨hD.eigenvectorUnitary, ?_, ?_, ?_⟩
  · exact Unitary.coe_star_mul_self hD.eigenvectorUnitary
  · exact Unitary.coe_mul_star_self hD.eigenvectorUnitary
  · conv_lhs => rw [hD.spectral_theorem]
    rfl

theorem traceNorm_diag (U : Matrix ι ι ℂ) (hU : Uᴴ * U = 1) (f : ι → ℝ) :
    traceNorm (U * diagonal (fun i => ((f i : ℝ) : ℂ)) * Uᴴ) = ∑ i, |f i| := by
  have hU' : U * Uᴴ = 1 := mul_eq_one_comm.mp hU
  rw [traceNorm_unitary U hU Uᴴ (by rw [conjTranspose_conjTranspose]; exact hU')]
  rw [traceNorm_of_charpoly _ (fun i => f i ^ 2)]
  · refine Finset.sum_congr rfl fun i _ => ?_
    rw [abs_of_nonneg (sq_nonneg _), Real.sqrt_sq_eq_abs]
  · rw [diagonal_conjTranspose, diagonal_mul_diagonal, charpoly_diagonal]
    refine Finset.prod_congr rfl fun i _ => ?_
    simp [sq]

/-- For a Hermitian matrix the trace norm is the sum of the absolute eigenvalues. -/
theorem traceNorm_hermitian {D : Matrix ι ι ℂ} (hD : D.IsHermitian) : traceNorm D = ∑ i, |hD.eigenvalues i| := by
  obtain ⟨U, h1, -, h3⟩ := exists_diag hD
  have := traceNorm_diag U h1 hD.eigenvalues
  rwa [← h3] at this

/-- `-1 <= W <= 1`. -/
def Between (W : Matrix ι ι ℂ) : Prop := (1 - W).PosSemidef ∧ (1 + W).PosSemidef

theorem Between.conj {W : Matrix ι ι ℂ} (h : Between W) (U : Matrix ι ι ℂ) (hU : Uᴴ * U = 1) : Between (Uᴴ * W * U) := by
  constructor
  · have := h.1.conjTranspose_mul_mul_same U
    rwa [Matrix.mul_sub, Matrix.sub_mul, Matrix.mul_one, hU] at this
  · have := h.2.conjTranspose_mul_mul_same U
    rwa [Matrix.mul_add, Matrix.add_mul, Matrix.mul_one, hU] at this

omit [Fintype ι] in
theorem Between.diag {W : Matrix ι ι ℂ} (h : Between W) (i : ι) : |(W i i).re| ≤ 1 := by
  have h1 := (Complex.le_def.mp (h.1.diag_nonneg (i := i))).1
  have h2 := (Complex.le_def.mp (h.2.diag_nonneg (i := i))).1
  simp at h1 h2
  rw [abs_le]
  constructor <;> linarith

theorem trace_mul_le {D W : Matrix ι ι ℂ} (hD : D.IsHermitian) (hW : Between W) : (W * D).trace.re ≤ traceNorm D := by
  obtain ⟨U, h1, h2, h3⟩ := exists_diag hD
  rw [traceNorm_hermitian hD]
  have ht : (W * D).trace = ∑ i, (Uᴴ * W * U) i i * ((hD.eigenvalues i : ℝ) : ℂ) := by
    conv_lhs => rw [h3]
    rw [← Matrix.mul_assoc, trace_mul_comm, ← Matrix.mul_assoc, ← Matrix.mul_assoc]
    simp [trace, mul_diagonal]
  rw [ht, Complex.re_sum]
  refine Finset.sum_le_sum fun i _ => ?_
  rw [Complex.re_mul_ofReal]
  have := (hW.conj U h1).diag i
  calc _ ≤ |((Uᴴ * W * U) i i).re * hD.eigenvalues i| := le_abs_self _
    _ = |((Uᴴ * W * U) i i).re| * |hD.eigenvalues i| := abs_mul _ _
    _ ≤ 1 * |hD.eigenvalues i| := by gcongr
    _ = _ := one_mul _

theorem exists_trace_mul_eq {D : Matrix ι ι ℂ} (hD : D.IsHermitian) :
    ∃ W, W.IsHermitian ∧ W * W = 1 ∧ Between W ∧ (W * D).trace.re = traceNorm D := by
  obtain ⟨U, h1, h2, h3⟩ := exists_diag hD
  let s : ι → ℝ := fun i => if 0 ≤ hD.eigenvalues i then 1 else -1
  have hs : ∀ i, s i = 1 ∨ s i = -1 := by
    intro i; simp only [s]; split_ifs <;> simp
  have hsa : ∀ i, s i * hD.eigenvalues i = |hD.eigenvalues i| := by
    intro i; simp only [s]; split_ifs with h
    · rw [abs_of_nonneg h, one_mul]
    · rw [abs_of_neg (not_le.mp h)]; ring
  have hdiag : ∀ f : ι → ℝ, (∀ i, 0 ≤ f i) → (U * diagonal (fun i => ((f i : ℝ) : ℂ)) * Uᴴ).PosSemidef := by
    intro f hf
    exact (PosSemidef.diagonal (n := ι) (d := fun i => ((f i : ℝ) : ℂ)) fun i => by
      simpa using hf i).mul_mul_conjTranspose_same U
  refine ⟨U * diagonal (fun i => ((s i : ℝ) : ℂ)) * Uᴴ, ?_, ?_, ⟨?_, ?_⟩, ?_⟩
  · rw [IsHermitian, conjTranspose_mul, conjTranspose_mul, conjTranspose_conjTranspose, diagonal_conjTranspose, ← Matrix.mul_assoc]
    congr 3
    funext i; simp
  · calc _ = U * diagonal (fun i => ((s i : ℝ) : ℂ)) * (Uᴴ * U) * diagonal (fun i => ((s i : ℝ) : ℂ)) * Uᴴ := by
          simp only [Matrix.mul_assoc]
      _ = U * (diagonal (fun i => ((s i : ℝ) : ℂ)) * diagonal (fun i => ((s i : ℝ) : ℂ))) * Uᴴ := by
          rw [h1, Matrix.mul_one]; simp only [Matrix.mul_assoc]
      _ = U * 1 * Uᴴ := by
          rw [diagonal_mul_diagonal]
          congr 2
          ext i j
          by_cases hij : i = j
          · subst hij
            rcases hs i with h | h <;> simp [h]
          · simp [hij]
      _ = 1 := by rw [Matrix.mul_one, h2]
  · have := hdiag (fun i => 1 - s i) (fun i => by rcases hs i with h | h <;> rw [h] <;> norm_num)
    convert this using 1
    rw [show diagonal (fun i => ((1 - s i : ℝ) : ℂ)) = 1 - diagonal (fun i => ((s i : ℝ) : ℂ)) by
      rw [← diagonal_one, diagonal_sub]; congr 1; funext i; simp]
    rw [Matrix.mul_sub, Matrix.sub_mul, Matrix.mul_one, h2]
  · have := hdiag (fun i => 1 + s i) (fun i => by rcases hs i with h | h <;> rw [h] <;> norm_num)
    convert this using 1
    rw [show diagonal (fun i => ((1 + s i : ℝ) : ℂ)) = 1 + diagonal (fun i => ((s i : ℝ) : ℂ)) by
      rw [← diagonal_one, diagonal_add]; congr 1; funext i; simp]
    rw [Matrix.mul_add, Matrix.add_mul, Matrix.mul_one, h2]
  · rw [traceNorm_hermitian hD]
    have : U * diagonal (fun i => ((s i : ℝ) : ℂ)) * Uᴴ * D =
        U * diagonal (fun i => ((|hD.eigenvalues i| : ℝ) : ℂ)) * Uᴴ := by
      conv_lhs => rw [h3]
      calc _ = U * diagonal (fun i => ((s i : ℝ) : ℂ)) * (Uᴴ * U) * diagonal (fun i => ((hD.eigenvalues i : ℝ) : ℂ)) * Uᴴ := by
            simp only [Matrix.mul_assoc]
        _ = U * (diagonal (fun i => ((s i : ℝ) : ℂ)) * diagonal (fun i => ((hD.eigenvalues i : ℝ) : ℂ))) * Uᴴ := by
            rw [h1, Matrix.mul_one]; simp only [Matrix.mul_assoc]
        _ = _ := by
            rw [diagonal_mul_diagonal]
            simp only [← Complex.ofReal_mul, hsa]
    rw [this, Matrix.trace_mul_comm, ← Matrix.mul_assoc, h1, Matrix.one_mul, trace_diagonal, ← Complex.ofReal_sum, Complex.ofReal_re]

theorem traceNorm_add_hermitian {D E : Matrix ι ι ℂ} (hD : D.IsHermitian) (hE : E.IsHermitian) :
    traceNorm (D + E) ≤ traceNorm D + traceNorm E := by
  obtain ⟨W, -, -, hW, h⟩ := exists_trace_mul_eq (hD.add hE)
  rw [← h, Matrix.mul_add, trace_add, Complex.add_re]
  exact add_le_add (trace_mul_le hD hW) (trace_mul_le hE hW)

theorem traceNorm_pos {D : Matrix ι ι ℂ} (hD : D.PosSemidef) : traceNorm D = D.trace.re := by
  rw [traceNorm_hermitian hD.isHermitian, hD.isHermitian.trace_eq_sum_eigenvalues]
  simp only [Complex.coe_algebraMap, ← Complex.ofReal_sum, Complex.ofReal_re]
  exact Finset.sum_congr rfl fun i _ => abs_of_nonneg (hD.eigenvalues_nonneg i)

/-! ### All matrices, through the Hermitian dilation -/

/-- The Hermitian matrix `[[0, D], [D†, 0]]`. -/
def dilation (D : Matrix ι ι ℂ) : Matrix (ι ⊕ ι) (ι ⊕ ι) ℂ := fromBlocks 0 D Dᴴ 0

omit [Fintype ι] [DecidableEq ι] in
theorem dilation_hermitian (D : Matrix ι ι ℂ) : (dilation D).IsHermitian := by
  rw [IsHermitian, dilation, fromBlocks_conjTranspose]
  simp

theorem traceNorm_dilation (D : Matrix ι ι ℂ) : traceNorm (dilation D) = 2 * traceNorm D := by
  have h : (dilation D)ᴴ * dilation D = fromBlocks (D * Dᴴ) 0 0 (Dᴴ * D) := by
    rw [dilation_hermitian D, dilation, fromBlocks_multiply]
    simp
  rw [traceNorm, h, charpoly_fromBlocks_zero₁₂, charpoly_mul_comm D Dᴴ, Polynomial.roots_mul, Multiset.map_add, Multiset.sum_add,
    traceNorm, two_mul]
  exact mul_ne_zero (charpoly_monic _).ne_zero (charpoly_monic _).ne_zero

theorem traceNorm_add (D E : Matrix ι ι ℂ) : traceNorm (D + E) ≤ traceNorm D + traceNorm E := by
  have h1 : dilation (D + E) = dilation D + dilation E := by
    rw [dilation, dilation, dilation, fromBlocks_add]; simp
  have := traceNorm_add_hermitian (dilation_hermitian D) (dilation_hermitian E)
  rw [← h1, traceNorm_dilation, traceNorm_dilation, traceNorm_dilation] at this
  linarith

/-- A Hermitian matrix is the difference of two positive ones, whose traces add up to the trace norm. -/
theorem exists_jordan {D : Matrix ι ι ℂ} (hD : D.IsHermitian) : ∃ P Q : Matrix ι ι ℂ, P.PosSemidef ∧ Q.PosSemidef ∧ D = P - Q ∧
    traceNorm D = P.trace.re + Q.trace.re := by
  obtain ⟨U, h1, h2, h3⟩ := exists_diag hD
  have hdiag : ∀ f : ι → ℝ, (∀ i, 0 ≤ f i) → (U * diagonal (fun i => ((f i : ℝ) : ℂ)) * Uᴴ).PosSemidef := by
    intro f hf
    exact (PosSemidef.diagonal (n := ι) (d := fun i => ((f i : ℝ) : ℂ)) fun i => by
      simpa using hf i).mul_mul_conjTranspose_same U
  have htr : ∀ f : ι → ℝ, (U * diagonal (fun i => ((f i : ℝ) : ℂ)) * Uᴴ).trace.re = ∑ i, f i := by
    intro f
    rw [Matrix.trace_mul_comm, ← Matrix.mul_assoc, h1, Matrix.one_mul, trace_diagonal, ← Complex.ofReal_sum, Complex.ofReal_re]
  refine ⟨U * diagonal (fun i => ((max (hD.eigenvalues i) 0 : ℝ) : ℂ)) * Uᴴ,
    U * diagonal (fun i => ((max (-hD.eigenvalues i) 0 : ℝ) : ℂ)) * Uᴴ,
    hdiag _ fun i => le_max_right _ _, hdiag _ fun i => le_max_right _ _, ?_, ?_⟩
  · conv_lhs => rw [h3]
    rw [← Matrix.sub_mul, ← Matrix.mul_sub, diagonal_sub]
    congr 3
    funext i
    rw [← Complex.ofReal_sub]
    congr 1
    rcases le_total 0 (hD.eigenvalues i) with h | h
    · rw [max_eq_left h, max_eq_right (by linarith)]; ring
    · rw [max_eq_right h, max_eq_left (by linarith)]; ring
  · rw [htr, htr, traceNorm_hermitian hD, ← Finset.sum_add_distrib]
    refine Finset.sum_congr rfl fun i _ => ?_
    rcases le_total 0 (hD.eigenvalues i) with h | h
    · rw [max_eq_left h, max_eq_right (by linarith), abs_of_nonneg h]; ring
    · rw [max_eq_right h, max_eq_left (by linarith), abs_of_nonpos h]; ring
end

/-! ## C59 -/

variable {d : ℕ}

/-- **C59 (metric).** The trace distance is non-negative, zero exactly for equal arguments, symmetric and satisfies the triangle
inequality, for all square matrices. -/
theorem C59_metric (A B C : Op d) : 0 ≤ traceDistance A B ∧ (traceDistance A B = 0 ↔ A = B) ∧
    traceDistance A B = traceDistance B A ∧ traceDistance A C ≤ traceDistance A B + traceDistance B C := by
  simp only [traceDistance_eq]
  refine ⟨by have := traceNorm_nonneg (A - B); positivity, ?_, ?_, ?_⟩
  · have := traceNorm_eq_zero (A - B)
    rw [sub_eq_zero] at this
    rw [← this]
    simp
  · rw [← neg_sub B A, traceNorm_neg]
  · have := traceNorm_add (A - B) (B - C)
    rw [sub_add_sub_cancel] at this
    linarith

/-- **C59 (unitaries).** Closed evolution of both states does not change the trace distance. -/
theorem C59_unitary (U A B : Op d) (hU : hc U * U = 1) :
    traceDistance (U * A * hc U) (U * B * hc U) = traceDistance A B := by
  have hU2 : Uᴴ * U = 1 := hU
  have h : U * A * hc U - U * B * hc U = U * (A - B) * Uᴴ := by
    rw [Matrix.mul_sub, Matrix.sub_mul]; rfl
  rw [traceDistance_eq, traceDistance_eq, h, traceNorm_unitary U hU2 Uᴴ (by
    rw [conjTranspose_conjTranspose]; exact mul_eq_one_comm.mp hU2)]

/-- **C59 (measurements).** For density matrices the trace distance is the largest difference of probabilities any measurement
outcome `0 <= E <= 1` can show, and a projector attains it. -/
theorem C59_measurement (rho sigma : Op d) (h1 : IsDensity rho) (h2 : IsDensity sigma) :
    (∀ E : Op d, E.PosSemidef → (1 - E).PosSemidef → ((E * rho).trace - (E * sigma).trace).re ≤ traceDistance rho sigma) ∧
    ∃ E : Op d, Eᴴ = E ∧ E * E = E ∧ ((E * rho).trace - (E * sigma).trace).re = traceDistance rho sigma := by
  have hD : (rho - sigma).IsHermitian := h1.pos.isHermitian.sub h2.pos.isHermitian
  have ht : (rho - sigma).trace = 0 := by rw [trace_sub, h1.tr, h2.tr, sub_self]
  have key : ∀ E : Op d, ((2 : ℂ) • E - 1) * (rho - sigma) = (2 : ℂ) • (E * (rho - sigma)) - (rho - sigma) := by
    intro E; rw [Matrix.sub_mul, Matrix.smul_mul, Matrix.one_mul]
  have key2 : ∀ E : Op d, ((E * rho).trace - (E * sigma).trace).re = 1 / 2 * (((2 : ℂ) • E - 1) * (rho - sigma)).trace.re := by
    intro E
    rw [key, trace_sub, ht, sub_zero, trace_smul, Matrix.mul_sub, trace_sub, smul_eq_mul, Complex.mul_re]
    simp
  constructor
  · intro E hE hE'
    rw [key2, traceDistance_eq]
    have hb : Between ((2 : ℂ) • E - 1) := by
      constructor
      · have : (1 : Op d) - ((2 : ℂ) • E - 1) = (2 : ℂ) • (1 - E) := by
          rw [smul_sub, two_smul ℂ (1 : Op d)]; abel
        rw [this]; exact hE'.smul (by norm_num)
      · have : (1 : Op d) + ((2 : ℂ) • E - 1) = (2 : ℂ) • E := by abel
        rw [this]; exact hE.smul (by norm_num)
    have := trace_mul_le hD hb
    linarith
  · obtain ⟨W, hW1, hW2, -, hW⟩ := exists_trace_mul_eq hD
    refine ⟨(1 / 2 : ℂ) • (1 + W), ?_, ?_, ?_⟩
    · rw [conjTranspose_smul, conjTranspose_add, conjTranspose_one, hW1.eq]
      congr 1
      simp
    · rw [Matrix.smul_mul, Matrix.mul_smul, smul_smul, Matrix.add_mul, Matrix.mul_add, Matrix.mul_add, hW2, Matrix.one_mul, Matrix.mul_one,
        Matrix.one_mul]
      module
    · rw [key2, traceDistance_eq, ← hW]
      congr 4
      module

/-- **C59 (range).** Between density matrices the trace distance is at most one. -/
theorem C59_le_one (rho sigma : Op d) (h1 : IsDensity rho) (h2 : IsDensity sigma) : traceDistance rho sigma ≤ 1 := by
  have := traceNorm_add_hermitian h1.pos.isHermitian h2.pos.isHermitian.neg
  rw [traceNorm_neg, traceNorm_pos h1.pos, traceNorm_pos h2.pos, h1.tr, h2.tr, ← sub_eq_add_neg] at this
  rw [traceDistance_eq]
  simp at this
  linarith

/-- Positive trace preserving maps bring states closer. -/
theorem traceDistance_contract (Φ : Op d → Op d) (hadd : ∀ X Y, Φ (X - Y) = Φ X - Φ Y) (hp : ∀ X, X.PosSemidef → (Φ X).PosSemidef)
    (ht : ∀ X, (Φ X).trace = X.trace) (A B : Op d) (hA : A.IsHermitian) (hB : B.IsHermitian) :
    traceDistance (Φ A) (Φ B) ≤ traceDistance A B := by
  obtain ⟨P, Q, h1, h2, h3, h4⟩ := exists_jordan (hA.sub hB)
  rw [traceDistance_eq, traceDistance_eq, ← hadd, h4, h3, hadd]
  have := traceNorm_add_hermitian (hp P h1).isHermitian (hp Q h2).isHermitian.neg
  rw [traceNorm_neg, traceNorm_pos (hp P h1), traceNorm_pos (hp Q h2), ht, ht, ← sub_eq_add_neg] at this
  linarith

/-- **C59 (open evolution).** Open evolution with non-negative rates never increases the trace distance of two states. -/
theorem C59_open_evolution (H : Option (Op d)) (hH : ∀ h, H = some h → h.IsHermitian) (As : List (Op d))
    (rates : Option (List ℝ)) (hr : ∀ rs, rates = some rs → ∀ r ∈ rs, 0 ≤ r) (double : Bool) (L : Op (d * d))
    (h : Liouvillian H (some (As.map .op)) rates double = some L) (t : ℝ) (ht : 0 ≤ t) (rho sigma : Op d)
    (h1 : IsDensity rho) (h2 : IsDensity sigma) :
    traceDistance (vec2Mat (NormedSpace.exp ((t : ℂ) • L) * mat2Vec rho)) (vec2Mat (NormedSpace.exp ((t : ℂ) • L) * mat2Vec sigma)) ≤
      traceDistance rho sigma := by
  have hok : ∀ P : Op (d * d) → Prop, ∀ l, some (As.map Collapse.op) = some l → ∀ c ∈ l, CollapseOk P c := by
    rintro P l ⟨⟩ c hc
    obtain ⟨A, _, rfl⟩ := List.mem_map.mp hc
    trivial
  refine traceDistance_contract (fun X => vec2Mat (NormedSpace.exp ((t : ℂ) • L) * mat2Vec X)) ?_ ?_ ?_ rho sigma
    h1.pos.isHermitian h2.pos.isHermitian
  · intro X Y
    have : mat2Vec (X - Y) = mat2Vec X - mat2Vec Y := rfl
    simp only [this, Matrix.mul_sub]
    rfl
  · exact fun X hX => (C55_completely_positive H hH _ rates hr double (hok _) L h t ht).positive X hX
  · exact fun X => C40_exp_trace L (C40_traceless H _ rates double (hok _) L h) t X

/-- **C59 (pure states).** For unit kets the trace distance of their density matrices is `sqrt(1 - |<a|b>|^2)`. -/
theorem C59_pure (a b : Ket d) (ha : IsUnit a) (hb : IsUnit b) :
    traceDistance (outerProd a) (outerProd b) = Real.sqrt (1 - ‖innerProd a (some b)‖ ^ 2) := by
  set P : Op d := outerProd a with hP
  set Q : Op d := outerProd b with hQ
  set F : ℝ := ‖innerProd a (some b)‖ ^ 2 with hF
  have hiu : ∀ k : Ket d, IsUnit k → innerProd k (some k) = 1 := by
    intro k hk
    have : innerProd k (some k) = ((∑ i, ‖k i 0‖ ^ 2 : ℝ) : ℂ) := innerProd_self k
    rw [this, hk]; simp
  have hPP : P * P = P := by rw [hP, outerProd_mul_outerProd, hiu a ha, one_smul]; rfl
  have hQQ : Q * Q = Q := by rw [hQ, outerProd_mul_outerProd, hiu b hb, one_smul]; rfl
  have hconj : innerProd b (some a) = (starRingEnd ℂ) (innerProd a (some b)) := by
    rw [innerProd_eq, innerProd_eq, map_sum]
    refine Finset.sum_congr rfl fun i _ => ?_
    rw [map_mul, Complex.conj_conj]; ring
  have hsq : innerProd b (some a) * innerProd a (some b) = (F : ℂ) := by
    rw [hconj, hF, mul_comm, Complex.mul_conj']; push_cast; rfl
  have hmid : ∀ (x y : Ket d), outerProd x * outerProd y * outerProd x =
      (innerProd y (some x) * innerProd x (some y)) • outerProd x := by
    intro x y
    rw [outerProd_mul_outerProd, Matrix.smul_mul]
    have h1 : x * hc y * outerProd x = innerProd x (some y) • outerProd x := by
      ext i j
      have : x * hc y * outerProd x = x * (hc y * x) * hc x := by
        simp only [outerProd, Option.getD_none, Matrix.mul_assoc]
      rw [this]
      simp only [Matrix.mul_apply, Finset.univ_unique, Fin.default_eq_zero, Finset.sum_singleton, Matrix.smul_apply, smul_eq_mul,
        innerProd_eq, hc, Matrix.map_apply, transpose_apply, outerProd, Option.getD_none]
      ring
    rw [h1, smul_smul]
  have hPQP : P * Q * P = (F : ℂ) • P := by rw [hP, hQ, hmid, hsq]
  have hQPQ : Q * P * Q = (F : ℂ) • Q := by rw [hP, hQ, hmid, mul_comm, hsq]
  have hD : (P - Q).IsHermitian := (outerProd_pos a).isHermitian.sub (outerProd_pos b).isHermitian
  have hcube : (P - Q) * (P - Q) * (P - Q) = ((1 - F : ℝ) : ℂ) • (P - Q) := by
    have e : (P - Q) * (P - Q) * (P - Q) = P * P * P - P * P * Q - (P * (Q * P)) + P * (Q * Q) - (Q * (P * P)) + Q * (P * Q) +
        (Q * Q * P) - Q * Q * Q := by
      simp only [Matrix.sub_mul, Matrix.mul_sub, Matrix.mul_assoc]; abel
    rw [e, ← Matrix.mul_assoc P Q P, hPQP, ← Matrix.mul_assoc Q P Q, hQPQ]
    simp only [hPP, hQQ]
    push_cast
    module
  have htr2 : ((P - Q) * (P - Q)).trace = ((2 * (1 - F) : ℝ) : ℂ) := by
    have hPQ : (P * Q).trace = (F : ℂ) := by
      have : (P * Q * P).trace = (F : ℂ) * 1 := by
        rw [hPQP, trace_smul, hP, outerProd_trace, ha]; simp
      rw [mul_one] at this
      rw [← this, Matrix.trace_mul_comm (P * Q) P, ← Matrix.mul_assoc, hPP]
    have hP1 : P.trace = 1 := by rw [hP, outerProd_trace, ha]; simp
    have hQ1 : Q.trace = 1 := by rw [hQ, outerProd_trace, hb]; simp
    rw [Matrix.sub_mul, Matrix.mul_sub, Matrix.mul_sub, hPP, hQQ, trace_sub, trace_sub, trace_sub, Matrix.trace_mul_comm Q P, hPQ,
      hP1, hQ1]
    push_cast; ring
  obtain ⟨U, u1, u2, u3⟩ := exists_diag hD
  set f := hD.eigenvalues with hf
  have hdd : ∀ g k : Fin d → ℂ, U * diagonal g * Uᴴ * (U * diagonal k * Uᴴ) = U * diagonal (fun i => g i * k i) * Uᴴ := by
    intro g k
    calc _ = U * diagonal g * (Uᴴ * U) * diagonal k * Uᴴ := by simp only [Matrix.mul_assoc]
      _ = U * (diagonal g * diagonal k) * Uᴴ := by rw [u1, Matrix.mul_one]; simp only [Matrix.mul_assoc]
      _ = _ := by rw [diagonal_mul_diagonal]
  have hev : ∀ i, f i * f i * f i = (1 - F) * f i := by
    rw [u3, hdd, hdd] at hcube
    have h2 := congrArg (fun X => Uᴴ * X * U) hcube
    simp only [Matrix.mul_smul, Matrix.smul_mul] at h2
    have hstrip : ∀ g : Fin d → ℂ, Uᴴ * (U * diagonal g * Uᴴ) * U = diagonal g := by
      intro g
      calc _ = (Uᴴ * U) * diagonal g * (Uᴴ * U) := by simp only [Matrix.mul_assoc]
        _ = _ := by rw [u1, Matrix.one_mul, Matrix.mul_one]
    rw [hstrip, hstrip] at h2
    intro i
    have h3 := congrFun (congrFun h2 i) i
    simp only [diagonal_apply_eq, Matrix.smul_apply, smul_eq_mul] at h3
    exact_mod_cast h3
  have hsum : ∑ i, f i * f i = 2 * (1 - F) := by
    rw [u3, hdd, Matrix.trace_mul_comm, ← Matrix.mul_assoc, u1, Matrix.one_mul, trace_diagonal] at htr2
    exact_mod_cast htr2
  have hF1 : 0 ≤ 1 - F := by
    have : 0 ≤ ∑ i, f i * f i := Finset.sum_nonneg fun i _ => mul_self_nonneg _
    linarith
  rw [traceDistance_eq, traceNorm_hermitian hD]
  have habs : ∀ i, |f i| * Real.sqrt (1 - F) = f i * f i := by
    intro i
    by_cases h0 : f i = 0
    · simp [h0]
    · have h4 : f i * f i = 1 - F := mul_right_cancel₀ h0 (hev i)
      have h5 : Real.sqrt (1 - F) = |f i| := by rw [← h4, Real.sqrt_mul_self_eq_abs]
      rw [h5, abs_mul_abs_self]
  have hfin : (∑ i, |f i|) * Real.sqrt (1 - F) = 2 * (1 - F) := by
    rw [Finset.sum_mul, ← hsum]
    exact Finset.sum_congr rfl fun i _ => habs i
  by_cases h0 : 1 - F = 0
  · rw [h0, mul_zero] at hsum
    have : ∀ i, f i = 0 := by
      intro i
      have := (Finset.sum_eq_zero_iff_of_nonneg (fun i _ => mul_self_nonneg (f i))).mp hsum i (Finset.mem_univ i)
      exact mul_self_eq_zero.mp this
    rw [h0, Real.sqrt_zero, Finset.sum_eq_zero fun i _ => by rw [← hf, this i, abs_zero], mul_zero]
  · have hs : Real.sqrt (1 - F) ≠ 0 := by
      rw [Real.sqrt_ne_zero hF1]; exact h0
    have hss := Real.mul_self_sqrt hF1
    refine mul_right_cancel₀ hs ?_
    rw [mul_assoc, hfin, hss]; ring

/-- **C59 (kets).** The function accepts kets and then returns half the Euclidean distance, which is not the trace distance of the
states: it separates `k` from `-k`, which are the same state. -/
theorem C59_kets (a b : Ket d) : traceDistance a b = 1 / 2 * Real.sqrt (∑ i, ‖a i 0 - b i 0‖ ^ 2) := by
  rw [traceDistance_eq]
  congr 1
  have h : (a - b)ᴴ * (a - b) = diagonal fun _ : Fin 1 => ((∑ i, ‖a i 0 - b i 0‖ ^ 2 : ℝ) : ℂ) := by
    ext i j
    obtain rfl : i = 0 := Subsingleton.elim _ _
    obtain rfl : j = 0 := Subsingleton.elim _ _
    have := innerProd_self (a - b)
    simp only [innerProd, Option.getD_none, trace, diag_apply, Finset.univ_unique, Fin.default_eq_zero, Finset.sum_singleton,
      Matrix.sub_apply] at this
    rw [diagonal_apply_eq, ← this]
    rfl
  rw [traceNorm_of_charpoly (a - b) (fun _ => ∑ i, ‖a i 0 - b i 0‖ ^ 2) (by rw [h, charpoly_diagonal])]
  simp only [Finset.univ_unique, Finset.sum_singleton]
  rw [abs_of_nonneg (Finset.sum_nonneg fun i _ => by positivity)]

theorem C59_kets_sign (k : Ket d) (hk : IsUnit k) : traceDistance k (-k) = 1 ∧ traceDistance (outerProd k) (outerProd (-k)) = 0 := by
  constructor
  · rw [C59_kets]
    have : ∀ i, ‖k i 0 - (-k) i 0‖ ^ 2 = 4 * ‖k i 0‖ ^ 2 := by
      intro i
      rw [Matrix.neg_apply, sub_neg_eq_add, ← two_mul, norm_mul, mul_pow]; norm_num
    simp only [this, ← Finset.mul_sum]
    unfold IsUnit at hk
    rw [hk, mul_one, show (4 : ℝ) = 2 ^ 2 by norm_num, Real.sqrt_sq (by norm_num)]
    norm_num
  · rw [(C59_metric _ _ 0).2.1]
    ext i j
    simp [outerProd_self_apply]

/-- Two non-orthogonal kets. -/
example : traceDistance (outerProd (!![3 / 5; 4 / 5] : Ket 2)) (outerProd !![1; 0]) = 4 / 5 := by
  rw [C59_pure]
  · have : innerProd (!![3 / 5; 4 / 5] : Ket 2) (some !![1; 0]) = 3 / 5 := by
      simp [innerProd_eq]
    rw [this]
    have h2 : (1 : ℝ) - ‖(3 / 5 : ℂ)‖ ^ 2 = (4 / 5) ^ 2 := by
      rw [norm_div]; norm_num
    rw [h2, Real.sqrt_sq (by norm_num)]
  · simp [IsUnit]; norm_num
  · simp [IsUnit]

end Verif.Toolbox
