import Verif.Toolbox.Wigner
import Mathlib.MeasureTheory.Integral.Gamma
import Mathlib.MeasureTheory.Measure.Haar.InnerProductSpace
import Mathlib.Analysis.Complex.Isometry

/-!
# C56: the Wigner function — value at the origin and total mass
-/
namespace Verif.Toolbox.Wig
open MeasureTheory

theorem fockW_origin (m n : ℕ) : fockW 0 m n = if m = n then ((-1) ^ m / Real.pi : ℂ) else 0 := by
  have hsum : ∀ k ∈ Finset.range (min m n + 1), k ≠ m ∨ k ≠ n →
      ((-1 : ℂ) ^ k * (k.factorial * m.choose k * n.choose k : ℕ) * (2 * 0) ^ (n - k)
        * (2 * (starRingEnd ℂ) 0) ^ (m - k)) = 0 := by
    intro k hk hne
    have := Finset.mem_range.mp hk
    have : n - k ≠ 0 ∨ m - k ≠ 0 := by omega
    rcases this with h | h <;> simp [h]
  unfold fockW
  by_cases h : m = n
  · subst h
    rw [Finset.sum_eq_single_of_mem m (by simp) (fun k hk hne => hsum k hk (Or.inl hne))]
    have hf : (m.factorial : ℂ) ≠ 0 := by exact_mod_cast m.factorial_ne_zero
    have hs : Real.sqrt (m.factorial * m.factorial) = m.factorial := Real.sqrt_mul_self (by positivity)
    rw [hs]
    simp
    field_simp
  · rw [Finset.sum_eq_zero (fun k hk => hsum k hk (by
      by_contra hc
      push Not at hc
      omega))]
    simp [h]

/-- **C56**: the value at the origin of phase space is the parity of the state. -/
theorem C56_parity (rho : ℕ → ℕ → ℂ) (M : ℕ) (hM : 0 < M) (hH : ∀ i j, rho j i = (starRingEnd ℂ) (rho i j)) (g : ℝ) :
    (wigner M rho g 0 0 : ℂ) = g ^ 2 / Real.pi * ∑ i ∈ Finset.range M, (-1) ^ i * rho i i := by
  rw [C56_closed_form_partial rho M hM hH]
  have : (g / 2 * (((0 : ℝ) : ℂ) + ((0 : ℝ) : ℂ) * Complex.I) : ℂ) = 0 := by simp
  rw [this]
  simp only [fockW_origin]
  rw [div_mul_eq_mul_div, mul_div_assoc, Finset.sum_div]
  congr 1
  refine Finset.sum_congr rfl fun i hi => ?_
  rw [Finset.sum_eq_single_of_mem i hi (fun j _ hj => by simp [Ne.symm hj])]
  simp
  ring

/-! ## Gaussian moments over the plane -/

theorem norm_moment (c : ℝ) (hc : 0 < c) (p : ℕ) :
    ∫ z : ℂ, ‖z‖ ^ p * Real.exp (-c * ‖z‖ ^ 2) = Real.pi * c ^ (-((p : ℝ) + 2) / 2) * Real.Gamma (((p : ℝ) + 2) / 2) := by
  have := Complex.integral_rpow_mul_exp_neg_mul_rpow (p := 2) (q := p) (b := c) (by norm_num)
    (by have := (Nat.cast_nonneg p : (0 : ℝ) ≤ p); linarith) hc
  simp only [Real.rpow_natCast, Real.rpow_two] at this
  rw [this]
  ring

theorem norm_moment_ne (c : ℝ) (hc : 0 < c) (p : ℕ) : ∫ z : ℂ, ‖z‖ ^ p * Real.exp (-c * ‖z‖ ^ 2) ≠ 0 := by
  rw [norm_moment c hc p]
  have h1 := Real.pi_pos
  have h2 : 0 < Real.Gamma (((p : ℝ) + 2) / 2) := Real.Gamma_pos_of_pos (by positivity)
  positivity

/-- the integrand of a moment -/
noncomputable def momF (c : ℝ) (p q : ℕ) (z : ℂ) : ℂ := z ^ p * (starRingEnd ℂ) z ^ q * (Real.exp (-c * ‖z‖ ^ 2) : ℝ)

theorem momF_integrable (c : ℝ) (hc : 0 < c) (p q : ℕ) : Integrable (momF c p q) := by
  have h := Integrable.of_integral_ne_zero (norm_moment_ne c hc (p + q))
  refine h.mono ?_ (Filter.Eventually.of_forall fun z => ?_)
  · refine Continuous.aestronglyMeasurable ?_
    unfold momF
    fun_prop
  · rw [momF, norm_mul, norm_mul, norm_pow, norm_pow, RCLike.norm_conj, Complex.norm_real, norm_mul, norm_pow, norm_norm, pow_add]

theorem momF_ne (c : ℝ) (p q : ℕ) (h : p ≠ q) : ∫ z : ℂ, momF c p q z = 0 := by
  set a : Circle := Circle.exp (Real.pi / ((p : ℝ) - q)) with ha
  have hpq : (p : ℝ) - q ≠ 0 := sub_ne_zero.mpr (by exact_mod_cast h)
  have hmp := (rotation a).measurePreserving
  have hrot := hmp.integral_comp (rotation a).toHomeomorph.measurableEmbedding (momF c p q)
  have hfac : ∀ z, momF c p q (rotation a z) = -momF c p q z := by
    intro z
    have hn : ‖(a : ℂ) * z‖ = ‖z‖ := by rw [norm_mul, Circle.norm_coe, one_mul]
    have hap : (a : ℂ) ^ p * (starRingEnd ℂ) (a : ℂ) ^ q = -1 := by
      rw [← Circle.coe_inv_eq_conj, ← Circle.coe_pow, ← Circle.coe_pow, ← Circle.coe_mul, ha, ← Circle.exp_neg,
        ← Circle.exp_nsmul, ← Circle.exp_nsmul, ← Circle.exp_add]
      rw [Circle.coe_exp]
      have : ((p • (Real.pi / ((p : ℝ) - q)) + q • -(Real.pi / ((p : ℝ) - q)) : ℝ) : ℂ) = Real.pi := by
        congr 1
        simp only [nsmul_eq_mul]
        field_simp
        ring
      rw [this, Complex.exp_pi_mul_I]
    rw [momF, momF, rotation_apply, hn, map_mul, mul_pow, mul_pow]
    linear_combination (z ^ p * (starRingEnd ℂ) z ^ q * ((Real.exp (-c * ‖z‖ ^ 2) : ℝ) : ℂ)) * hap
  simp only [hfac, integral_neg] at hrot
  have : (2 : ℂ) * ∫ z, momF c p q z = 0 := by
    linear_combination -hrot
  simpa using this

theorem momF_eq (c : ℝ) (hc : 0 < c) (p : ℕ) : ∫ z : ℂ, momF c p p z = Real.pi * p.factorial / c ^ (p + 1) := by
  have h1 : ∀ z : ℂ, momF c p p z = ((‖z‖ ^ (2 * p) * Real.exp (-c * ‖z‖ ^ 2) : ℝ) : ℂ) := by
    intro z
    rw [momF, ← mul_pow, Complex.mul_conj, Complex.normSq_eq_norm_sq]
    push_cast
    ring
  simp only [h1]
  rw [integral_complex_ofReal, norm_moment c hc]
  have h2 : ((2 * p : ℕ) + 2 : ℝ) / 2 = p + 1 := by push_cast; ring
  have h3 : -((2 * p : ℕ) + 2 : ℝ) / 2 = -((p + 1 : ℕ) : ℝ) := by push_cast; ring
  rw [h2, h3, Real.Gamma_nat_eq_factorial, Real.rpow_neg hc.le, Real.rpow_natCast]
  push_cast
  field_simp

/-! ## Total mass -/

theorem fockW_momF (g : ℝ) (m n : ℕ) (z : ℂ) : fockW (g / 2 * z) m n = ∑ k ∈ Finset.range (min m n + 1),
    ((1 / Real.pi : ℂ) / (Real.sqrt (m.factorial * n.factorial) : ℂ) * ((-1) ^ k * (k.factorial * m.choose k * n.choose k : ℕ))
      * (g : ℂ) ^ (n - k + (m - k))) * momF (g ^ 2 / 2) (n - k) (m - k) z := by
  unfold fockW
  rw [Finset.mul_sum]
  refine Finset.sum_congr rfl fun k _ => ?_
  have h1 : -2 * ‖(g / 2 * z : ℂ)‖ ^ 2 = -(g ^ 2 / 2) * ‖z‖ ^ 2 := by
    rw [norm_mul, norm_div, Complex.norm_real, Complex.norm_ofNat, mul_pow, div_pow, Real.norm_eq_abs, sq_abs]
    ring
  have h2 : (2 * (g / 2 * z) : ℂ) = g * z := by ring
  have h3 : (2 * (starRingEnd ℂ) (g / 2 * z) : ℂ) = g * (starRingEnd ℂ) z := by
    rw [map_mul, map_div₀, Complex.conj_ofReal, Complex.conj_ofNat]; ring
  rw [h1, h2, h3, momF, mul_pow, mul_pow, pow_add]
  push_cast
  ring

theorem fockW_integrable (g : ℝ) (hg : g ≠ 0) (m n : ℕ) : Integrable (fun z : ℂ => fockW (g / 2 * z) m n) := by
  simp only [fockW_momF]
  exact integrable_finsetSum _ fun k _ => (momF_integrable _ (by positivity) _ _).const_mul _

theorem fockW_mass (g : ℝ) (hg : g ≠ 0) (m n : ℕ) :
    ∫ z : ℂ, fockW (g / 2 * z) m n = if m = n then (2 / g ^ 2 : ℂ) else 0 := by
  have hc : 0 < g ^ 2 / 2 := by positivity
  simp only [fockW_momF]
  rw [integral_finsetSum _ fun k _ => (momF_integrable _ hc _ _).const_mul _]
  simp only [integral_const_mul]
  by_cases h : m = n
  · subst h
    rw [if_pos rfl, min_self]
    have hterm : ∀ k ∈ Finset.range (m + 1),
        ((1 / Real.pi : ℂ) / (Real.sqrt (m.factorial * m.factorial) : ℂ) * ((-1) ^ k * (k.factorial * m.choose k * m.choose k : ℕ))
          * (g : ℂ) ^ (m - k + (m - k))) * ∫ z : ℂ, momF (g ^ 2 / 2) (m - k) (m - k) z
        = (2 / g ^ 2 : ℂ) * ((-1) ^ k * 2 ^ (m - k) * (m.choose k : ℂ)) := by
      intro k hk
      have hk' : k ≤ m := by have := Finset.mem_range.mp hk; omega
      rw [momF_eq _ hc, Real.sqrt_mul_self (by positivity)]
      have hfac : (m.choose k : ℂ) * k.factorial * (m - k).factorial = m.factorial := by
        exact_mod_cast Nat.choose_mul_factorial_mul_factorial hk'
      have hf : (m.factorial : ℂ) ≠ 0 := by exact_mod_cast m.factorial_ne_zero
      have hpi : (Real.pi : ℂ) ≠ 0 := by exact_mod_cast Real.pi_ne_zero
      have hg' : (g : ℂ) ≠ 0 := by exact_mod_cast hg
      have hpow : (((g ^ 2 / 2 : ℝ) : ℂ)) ^ (m - k + 1) = (g : ℂ) ^ (m - k + (m - k)) * g ^ 2 / (2 ^ (m - k) * 2) := by
        push_cast
        rw [div_pow, pow_add, pow_add, pow_one, pow_one, ← pow_mul, ← two_mul]
      rw [hpow]
      push_cast
      field_simp
      rw [← hfac]
      ring
    rw [Finset.sum_congr rfl hterm, ← Finset.mul_sum, ← add_pow]
    norm_num
  · rw [if_neg h]
    refine Finset.sum_eq_zero fun k hk => ?_
    have := Finset.mem_range.mp hk
    rw [momF_ne _ _ _ (by omega), mul_zero]

theorem wigner_z (rho : ℕ → ℕ → ℂ) (M : ℕ) (hM : 0 < M) (hH : ∀ i j, rho j i = (starRingEnd ℂ) (rho i j)) (g : ℝ) (z : ℂ) :
    (wigner M rho g z.re z.im : ℂ) = g ^ 2 * ∑ i ∈ Finset.range M, ∑ j ∈ Finset.range M, rho i j * fockW (g / 2 * z) i j := by
  rw [C56_closed_form_partial rho M hM hH, Complex.re_add_im]

/-- **C56** is false of the code: over the whole phase plane the returned function integrates to twice the trace, for every
dimension, Hermitian matrix and scaling, instead of the trace (a factor one half is missing in the last line). -/
theorem C56_mass (rho : ℕ → ℕ → ℂ) (M : ℕ) (hM : 0 < M) (hH : ∀ i j, rho j i = (starRingEnd ℂ) (rho i j)) (g : ℝ) (hg : g ≠ 0) :
    Integrable (fun z : ℂ => wigner M rho g z.re z.im) ∧
      ((∫ z : ℂ, wigner M rho g z.re z.im : ℝ) : ℂ) = 2 * ∑ i ∈ Finset.range M, rho i i := by
  have hint : ∀ i ∈ Finset.range M, ∀ j ∈ Finset.range M, Integrable (fun z : ℂ => rho i j * fockW (g / 2 * z) i j) :=
    fun i _ j _ => (fockW_integrable g hg i j).const_mul _
  have hi : Integrable (fun z : ℂ => (wigner M rho g z.re z.im : ℂ)) := by
    simp only [wigner_z rho M hM hH]
    exact (integrable_finsetSum _ fun i hi => integrable_finsetSum _ fun j hj => hint i hi j hj).const_mul _
  refine ⟨by simpa using hi.re, ?_⟩
  rw [← integral_complex_ofReal]
  simp only [wigner_z rho M hM hH]
  have hg' : (g : ℂ) ≠ 0 := by exact_mod_cast hg
  rw [integral_const_mul, integral_finsetSum _ fun i hi => integrable_finsetSum _ fun j hj => hint i hi j hj,
    Finset.mul_sum, Finset.mul_sum]
  refine Finset.sum_congr rfl fun i hi => ?_
  rw [integral_finsetSum _ fun j hj => hint i hi j hj]
  simp only [integral_const_mul, fockW_mass g hg]
  rw [Finset.sum_eq_single_of_mem i hi (fun j _ hj => by simp [Ne.symm hj])]
  simp
  field_simp

/-- **C56**: in particular the vacuum, a normalised state, has total mass two. -/
theorem C56_vacuum : ∫ z : ℂ, wigner 2 (fun i j => if i = 0 ∧ j = 0 then 1 else 0) (Real.sqrt 2) z.re z.im = 2 := by
  have h := (C56_mass (fun i j => if i = 0 ∧ j = 0 then 1 else 0) 2 (by norm_num) (by
    intro i j
    by_cases h : i = 0 ∧ j = 0
    · simp [h]
    · have h' : ¬ (j = 0 ∧ i = 0) := fun hc => h hc.symm
      simp [h, h']) (Real.sqrt 2) (by simp)).2
  simp at h
  exact_mod_cast h

/-- a superposition: at the origin only the populations count -/
example : (wigner 2 (fun _ _ => 1 / 2) 2 0 0 : ℂ) = 0 := by
  rw [C56_parity _ 2 (by norm_num) (by intro i j; simp [Complex.conj_ofNat])]
  simp [Finset.sum_range_succ]

end Verif.Toolbox.Wig
