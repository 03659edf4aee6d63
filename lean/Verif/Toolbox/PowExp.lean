import Mathlib.Analysis.SpecialFunctions.Exponential
import Mathlib.Analysis.Normed.Algebra.Exponential
import Mathlib.Analysis.Normed.Algebra.MatrixExponential
import Mathlib.Analysis.SpecialFunctions.Exp
import Mathlib.Analysis.Calculus.Deriv.Slope

/-!
# `(1 + A/k + E/k²)^k → exp A` in a Banach algebra

Used for the positivity of open evolution.
-/
namespace Verif.Toolbox
open NormedSpace Filter Topology

variable {𝔸 : Type*} [NormedRing 𝔸] [NormOneClass 𝔸] [NormedAlgebra ℝ 𝔸] [CompleteSpace 𝔸]

omit [NormedAlgebra ℝ 𝔸] [CompleteSpace 𝔸] in
theorem norm_pow_sub_pow_le (x y : 𝔸) (M : ℝ) (hM : 1 ≤ M) (hx : ‖x‖ ≤ M) (hy : ‖y‖ ≤ M) :
    ∀ k : ℕ, ‖x ^ k - y ^ k‖ ≤ k * M ^ k * ‖x - y‖ := by
  intro k
  induction k with
  | zero => simp
  | succ k ih =>
    have h0 : x ^ (k + 1) - y ^ (k + 1) = x ^ k * (x - y) + (x ^ k - y ^ k) * y := by
      rw [pow_succ, pow_succ]; noncomm_ring
    have hM0 : (0 : ℝ) ≤ M := by linarith
    have h1 : ‖x ^ k * (x - y)‖ ≤ M ^ k * ‖x - y‖ :=
      (norm_mul_le _ _).trans (mul_le_mul_of_nonneg_right
        ((norm_pow_le x k).trans (pow_le_pow_left₀ (norm_nonneg _) hx k)) (norm_nonneg _))
    have h2 : ‖(x ^ k - y ^ k) * y‖ ≤ k * M ^ k * ‖x - y‖ * M :=
      (norm_mul_le _ _).trans (mul_le_mul ih hy (norm_nonneg _) (by positivity))
    have h3 : M ^ k * ‖x - y‖ ≤ M ^ (k + 1) * ‖x - y‖ :=
      mul_le_mul_of_nonneg_right (pow_le_pow_right₀ hM (by omega)) (norm_nonneg _)
    calc ‖x ^ (k + 1) - y ^ (k + 1)‖ ≤ M ^ k * ‖x - y‖ + k * M ^ k * ‖x - y‖ * M := by
          rw [h0]; exact (norm_add_le _ _).trans (add_le_add h1 h2)
      _ ≤ M ^ (k + 1) * ‖x - y‖ + k * M ^ k * ‖x - y‖ * M := by linarith
      _ = ((k + 1 : ℕ) : ℝ) * M ^ (k + 1) * ‖x - y‖ := by push_cast; ring

theorem norm_exp_le (x : 𝔸) : ‖exp x‖ ≤ Real.exp ‖x‖ := by
  have h1 := exp_series_hasSum_exp' (𝕂 := ℝ) x
  have h2 := exp_series_hasSum_exp' (𝕂 := ℝ) ‖x‖
  rw [← Real.exp_eq_exp_ℝ] at h2
  refine h1.norm_le_of_bounded h2 fun k => ?_
  rw [norm_smul, Real.norm_eq_abs, abs_of_pos (by positivity), smul_eq_mul]
  exact mul_le_mul_of_nonneg_left (norm_pow_le x k) (by positivity)

theorem tendsto_pow_exp (A E : 𝔸) :
    Tendsto (fun k : ℕ => (1 + (k : ℝ)⁻¹ • A + ((k : ℝ)⁻¹ ^ 2) • E) ^ k) atTop (𝓝 (exp A)) := by
  letI : NormedAlgebra ℚ 𝔸 := NormedAlgebra.restrictScalars ℚ ℝ 𝔸
  have hinv : Tendsto (fun k : ℕ => (k : ℝ)⁻¹) atTop (𝓝 0) := tendsto_inv_atTop_nhds_zero_nat
  have hinv' : Tendsto (fun k : ℕ => (k : ℝ)⁻¹) atTop (𝓝[≠] 0) := by
    refine tendsto_nhdsWithin_iff.mpr ⟨hinv, ?_⟩
    filter_upwards [eventually_ge_atTop 1] with k hk
    simp only [Set.mem_compl_iff, Set.mem_singleton_iff, inv_eq_zero, Nat.cast_eq_zero]
    omega
  have hder := hasDerivAt_exp_smul_const (𝕂 := ℝ) A (0 : ℝ)
  rw [hasDerivAt_iff_tendsto_slope] at hder
  have hs := hder.comp hinv'
  simp only [zero_smul, exp_zero, one_mul] at hs
  have h2 : Tendsto (fun k : ℕ => A + (k : ℝ)⁻¹ • E) atTop (𝓝 (A + (0 : ℝ) • E)) :=
    tendsto_const_nhds.add (hinv.smul_const E)
  rw [zero_smul, add_zero] at h2
  have hdiff := h2.sub hs
  rw [sub_self] at hdiff
  have hbound := (hdiff.norm.const_mul (Real.exp (‖A‖ + ‖E‖)))
  rw [norm_zero, mul_zero] at hbound
  rw [tendsto_iff_norm_sub_tendsto_zero]
  refine squeeze_zero' (Eventually.of_forall fun _ => norm_nonneg _) ?_ hbound
  filter_upwards [eventually_ge_atTop 1] with k hk
  have hk0 : (0 : ℝ) < k := by exact_mod_cast hk
  have hk1 : (1 : ℝ) ≤ k := by exact_mod_cast hk
  have hki : (k : ℝ)⁻¹ ≤ 1 := inv_le_one_of_one_le₀ hk1
  have hki0 : (0 : ℝ) < (k : ℝ)⁻¹ := by positivity
  set x := 1 + (k : ℝ)⁻¹ • A + ((k : ℝ)⁻¹ ^ 2) • E with hxdef
  set y := exp ((k : ℝ)⁻¹ • A) with hydef
  have hyk : y ^ k = exp A := by
    rw [hydef, ← exp_nsmul]
    congr 1
    rw [← Nat.cast_smul_eq_nsmul ℝ, smul_smul, mul_inv_cancel₀ hk0.ne', one_smul]
  have hM : Real.exp ((k : ℝ)⁻¹ * (‖A‖ + ‖E‖)) ^ k = Real.exp (‖A‖ + ‖E‖) := by
    rw [← Real.exp_nat_mul, ← mul_assoc, mul_inv_cancel₀ hk0.ne', one_mul]
  have hx : ‖x‖ ≤ Real.exp ((k : ℝ)⁻¹ * (‖A‖ + ‖E‖)) := by
    have h1 : ‖x‖ ≤ 1 + (k : ℝ)⁻¹ * ‖A‖ + (k : ℝ)⁻¹ ^ 2 * ‖E‖ := by
      refine (norm_add_le _ _).trans (add_le_add ((norm_add_le _ _).trans (add_le_add norm_one.le ?_)) ?_)
      · rw [norm_smul, Real.norm_eq_abs, abs_of_pos hki0]
      · rw [norm_smul, Real.norm_eq_abs, abs_of_pos (by positivity)]
    have h3 : (k : ℝ)⁻¹ ^ 2 * ‖E‖ ≤ (k : ℝ)⁻¹ * ‖E‖ := by
      refine mul_le_mul_of_nonneg_right ?_ (norm_nonneg _)
      nlinarith
    have h4 := Real.add_one_le_exp ((k : ℝ)⁻¹ * (‖A‖ + ‖E‖))
    nlinarith
  have hy : ‖y‖ ≤ Real.exp ((k : ℝ)⁻¹ * (‖A‖ + ‖E‖)) := by
    refine (norm_exp_le _).trans (Real.exp_le_exp.mpr ?_)
    rw [norm_smul, Real.norm_eq_abs, abs_of_pos hki0]
    exact mul_le_mul_of_nonneg_left (le_add_of_nonneg_right (norm_nonneg _)) hki0.le
  have hM1 : 1 ≤ Real.exp ((k : ℝ)⁻¹ * (‖A‖ + ‖E‖)) := Real.one_le_exp (by positivity)
  have := norm_pow_sub_pow_le x y _ hM1 hx hy k
  rw [hyk, hM] at this
  refine this.trans (le_of_eq ?_)
  have h5 : (A + (k : ℝ)⁻¹ • E) - (slope (fun u : ℝ => exp (u • A)) 0 ∘ fun k : ℕ => (k : ℝ)⁻¹) k = (k : ℝ) • (x - y) := by
    simp only [Function.comp, slope_def_module, sub_zero, inv_inv, zero_smul, exp_zero]
    rw [hxdef, hydef, smul_sub, smul_sub, smul_add, smul_add, smul_smul, smul_smul, mul_inv_cancel₀ hk0.ne', one_smul]
    have : (k : ℝ) * (k : ℝ)⁻¹ ^ 2 = (k : ℝ)⁻¹ := by field_simp
    rw [this]
    abel
  rw [h5, norm_smul, Real.norm_eq_abs, abs_of_pos hk0]
  ring

end Verif.Toolbox
