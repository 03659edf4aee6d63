import Verif.Toolbox.StateProps
import Mathlib.Analysis.SpecialFunctions.Trigonometric.DerivHyp
import Mathlib.Analysis.SpecificLimits.Normed
import Mathlib.Analysis.SpecialFunctions.Exp
import Mathlib.Analysis.Normed.Algebra.MatrixExponential

/-!
# C62: `thermodynamics.py`

`HeatCurrent` (`thermodynamics.py:102-134`) is not modelled: its last line calls a method `tr` that neither NumPy arrays nor SciPy
matrices have, so every call raises.
-/
namespace Verif.Toolbox.Thermo
open Matrix Verif.Toolbox

/-! ## Model -/

/-- The exceptions. -/
inductive Err where
  | zeroDivision
  | value
deriving DecidableEq

/-- `nBarThermal` (`thermodynamics.py:34-71`). Simplification: exact real numbers, in particular no overflow of `exp`. -/
noncomputable def nBarThermal (angFreq temp : ℝ) (hbar kb : ℝ := 1) : Except Err ℝ :=
  if temp = 0 then .ok 0
  else if temp * kb = 0 then .error .zeroDivision
  else if Real.exp ((hbar * angFreq) / (temp * kb)) = 1 then .error .value
  else .ok (1 / (Real.exp ((hbar * angFreq) / (temp * kb)) - 1))

/-- `qubitPolarisation` (`thermodynamics.py:73-100`). -/
noncomputable def qubitPolarisation (freq temp : ℝ) : Except Err ℝ :=
  if temp = 0 then .error .zeroDivision
  else
    let populationRatio := Real.exp (-freq / temp)
    let groundPop := 1 / (1 + populationRatio)
    .ok (1 - 2 * groundPop)

/-! ## Average excitation number -/

/-- **C62 (exceptions).** A number is returned at temperature zero, and at other temperatures exactly if Boltzmann's constant and the
energy are not zero. -/
theorem C62_nbar_raises (w T h k : ℝ) : (nBarThermal w T h k = .error .zeroDivision ↔ T ≠ 0 ∧ k = 0) ∧
    (nBarThermal w T h k = .error .value ↔ T ≠ 0 ∧ k ≠ 0 ∧ h * w = 0) ∧
    (T = 0 → nBarThermal w T h k = .ok 0) ∧
    (T ≠ 0 → k ≠ 0 → h * w ≠ 0 → nBarThermal w T h k = .ok (1 / (Real.exp (h * w / (T * k)) - 1))) := by
  by_cases hT : T = 0
  · simp [nBarThermal, hT]
  · by_cases hk : k = 0
    · simp [nBarThermal, hT, hk]
    · have hTk : T * k ≠ 0 := mul_ne_zero hT hk
      by_cases he : h * w = 0
      · simp [nBarThermal, hT, hk, he]
      · have : h * w / (T * k) ≠ 0 := div_ne_zero he hTk
        simp [nBarThermal, hT, hk, he, this]

section
variable {w T h k : ℝ}

/-- the value in terms of `x = hbar w / (kb T)` -/
theorem nbar_of_pos (hx : 0 < h * w / (T * k)) : nBarThermal w T h k = .ok (1 / (Real.exp (h * w / (T * k)) - 1)) := by
  have h1 : h * w ≠ 0 := fun h0 => by simp [h0] at hx
  have h2 : T ≠ 0 := fun h0 => by simp [h0] at hx
  have h3 : k ≠ 0 := fun h0 => by simp [h0] at hx
  exact (C62_nbar_raises w T h k).2.2.2 h2 h3 h1

/-- **C62 (mean).** The result is the mean of the thermal distribution `(1 - q) q^n`, `q = exp(-hbar w / kb T)`. -/
theorem C62_nbar_mean (hx : 0 < h * w / (T * k)) : ∃ n, nBarThermal w T h k = .ok n ∧
    HasSum (fun j : ℕ => (1 - Real.exp (-(h * w / (T * k)))) * Real.exp (-(h * w / (T * k))) ^ j) 1 ∧
    HasSum (fun j : ℕ => (j : ℝ) * ((1 - Real.exp (-(h * w / (T * k)))) * Real.exp (-(h * w / (T * k))) ^ j)) n := by
  refine ⟨_, nbar_of_pos hx, ?_⟩
  generalize h * w / (T * k) = x at hx
  set q := Real.exp (-x) with hq
  have hq0 : 0 < q := Real.exp_pos _
  have hq1 : q < 1 := by rw [hq, Real.exp_lt_one_iff]; linarith
  have hqx : Real.exp x = 1 / q := by rw [hq, Real.exp_neg, one_div, inv_inv]
  constructor
  · have := (hasSum_geometric_of_lt_one hq0.le hq1).mul_left (1 - q)
    rwa [mul_inv_cancel₀ (by linarith)] at this
  · have h1 := (hasSum_coe_mul_geometric_of_norm_lt_one (r := q) (by rwa [Real.norm_of_nonneg hq0.le])).mul_left (1 - q)
    have e : (1 - q) * (q / (1 - q) ^ 2) = 1 / (Real.exp x - 1) := by
      rw [hqx]
      have : 1 - q ≠ 0 := by linarith
      field_simp
    rw [e] at h1
    have e2 : (fun j : ℕ => (j : ℝ) * ((1 - q) * q ^ j)) = fun j : ℕ => (1 - q) * ((j : ℝ) * q ^ j) := by
      funext j; ring
    rw [e2]
    exact h1

/-- **C62 (detailed balance).** The result is positive and `n / (n + 1) = exp(-hbar w / kb T)`. -/
theorem C62_nbar_balance (hx : 0 < h * w / (T * k)) : ∃ n, nBarThermal w T h k = .ok n ∧ 0 < n ∧
    n / (n + 1) = Real.exp (-(h * w / (T * k))) := by
  refine ⟨_, nbar_of_pos hx, ?_⟩
  generalize h * w / (T * k) = x at hx
  have h1 : 1 < Real.exp x := by rwa [Real.one_lt_exp_iff]
  have h2 : 0 < Real.exp x - 1 := by linarith
  refine ⟨by positivity, ?_⟩
  rw [Real.exp_neg]
  have := (Real.exp_pos x).ne'
  field_simp
  ring

/-- **C62 (temperature).** The number grows strictly with the temperature. -/
theorem C62_nbar_monotone {T' : ℝ} (hw : 0 < h * w) (hk : 0 < k) (hT : 0 < T) (hTT : T < T') : ∃ n n', nBarThermal w T h k = .ok n ∧
    nBarThermal w T' h k = .ok n' ∧ n < n' := by
  have hT' : 0 < T' := hT.trans hTT
  refine ⟨_, _, nbar_of_pos (by positivity), nbar_of_pos (by positivity), ?_⟩
  have h1 : h * w / (T' * k) < h * w / (T * k) := by
    apply div_lt_div_of_pos_left hw (by positivity)
    exact mul_lt_mul_of_pos_right hTT hk
  have h2 : 1 < Real.exp (h * w / (T' * k)) := by rw [Real.one_lt_exp_iff]; positivity
  apply one_div_lt_one_div_of_lt (by linarith)
  have := Real.exp_lt_exp.mpr h1
  linarith

/-- **C62 (zero temperature).** The value zero returned at temperature zero is the limit from above. -/
theorem C62_nbar_zero (hw : 0 < h * w) (hk : 0 < k) (ε : ℝ) (hε : 0 < ε) : ∃ T₀ > 0, ∀ T, 0 ≤ T → T < T₀ →
    ∃ n, nBarThermal w T h k = .ok n ∧ 0 ≤ n ∧ n < ε := by
  -- n ≤ 1 / x because exp x - 1 ≥ x
  refine ⟨ε * (h * w) / k, by positivity, fun T hT hlt => ?_⟩
  rcases hT.eq_or_lt with rfl | hT
  · exact ⟨0, by simp [nBarThermal], le_rfl, hε⟩
  have hx : 0 < h * w / (T * k) := by positivity
  refine ⟨_, nbar_of_pos hx, ?_, ?_⟩
  · have : 1 < Real.exp (h * w / (T * k)) := by rwa [Real.one_lt_exp_iff]
    have : 0 < Real.exp (h * w / (T * k)) - 1 := by linarith
    positivity
  · have h1 : h * w / (T * k) < Real.exp (h * w / (T * k)) - 1 := by
      have := Real.add_one_lt_exp hx.ne'
      linarith
    calc 1 / (Real.exp (h * w / (T * k)) - 1) < 1 / (h * w / (T * k)) := one_div_lt_one_div_of_lt hx h1
      _ = T * k / (h * w) := by rw [one_div_div]
      _ < ε := by
          rw [div_lt_iff₀ hw]
          rw [lt_div_iff₀ hk] at hlt
          exact hlt

/-- **C62 (negative arguments).** A negative frequency or temperature is accepted and gives a number below `-1`. -/
theorem C62_nbar_negative (hx : h * w / (T * k) < 0) : ∃ n m, nBarThermal w T h k = .ok n ∧ nBarThermal (-w) T h k = .ok m ∧
    n = -1 - m ∧ n < -1 := by
  have h1 : h * w ≠ 0 := fun h0 => by simp [h0] at hx
  have h2 : T ≠ 0 := fun h0 => by simp [h0] at hx
  have h3 : k ≠ 0 := fun h0 => by simp [h0] at hx
  have hx' : 0 < h * -w / (T * k) := by rw [mul_neg, neg_div]; linarith
  refine ⟨_, _, (C62_nbar_raises w T h k).2.2.2 h2 h3 h1, nbar_of_pos hx', ?_⟩
  have e : h * -w / (T * k) = -(h * w / (T * k)) := by rw [mul_neg, neg_div]
  rw [e]
  generalize h * w / (T * k) = x at hx
  have hp := Real.exp_pos x
  have hlt : Real.exp x < 1 := by rwa [Real.exp_lt_one_iff]
  rw [Real.exp_neg]
  have a1 : Real.exp x - 1 ≠ 0 := by linarith
  have a2 : (Real.exp x)⁻¹ - 1 = (1 - Real.exp x) / Real.exp x := by field_simp
  have a3 : 1 - Real.exp x ≠ 0 := by linarith
  have e1 : 1 / (Real.exp x - 1) = -1 - 1 / ((Real.exp x)⁻¹ - 1) := by
    rw [a2, one_div_div]
    have : Real.exp x - 1 = -(1 - Real.exp x) := by ring
    rw [this]
    field_simp
    ring
  refine ⟨e1, ?_⟩
  rw [e1, a2, one_div_div]
  have : 0 < Real.exp x / (1 - Real.exp x) := div_pos hp (by linarith)
  linarith
end

/-- At the frequency `log 2` and temperature one the mean number is one. -/
example : nBarThermal (Real.log 2) 1 = .ok 1 := by
  have hl : 0 < Real.log 2 := Real.log_pos (by norm_num)
  rw [nbar_of_pos (by simpa using hl)]
  simp [Real.exp_log]
  norm_num

/-! ## Polarisation of a qubit -/

/-- **C62 (polarisation).** The polarisation is `-tanh(freq / (2 temp))`; only temperature zero raises. -/
theorem C62_polarisation (f T : ℝ) : qubitPolarisation f T = if T = 0 then .error .zeroDivision else .ok (-Real.tanh (f / (2 * T))) := by
  unfold qubitPolarisation
  split
  · rfl
  · congr 1
    simp only
    have h1 : Real.exp (-f / T) = Real.exp (-(f / (2 * T))) / Real.exp (f / (2 * T)) := by
      rw [← Real.exp_sub]; congr 1; field_simp; ring
    have hp := Real.exp_pos (f / (2 * T))
    have hq := Real.exp_pos (-(f / (2 * T)))
    rw [h1, Real.tanh_eq_sinh_div_cosh, Real.sinh_eq, Real.cosh_eq]
    field_simp
    ring

/-- **C62 (populations).** It is the difference of the populations of the excited and the ground state, which add up to one and have
the ratio `exp(-freq/temp)`. -/
theorem C62_populations (f T : ℝ) (hT : T ≠ 0) (p0 p1 : ℝ) (hs : p0 + p1 = 1) (hr : p1 = Real.exp (-f / T) * p0) :
    qubitPolarisation f T = .ok (p1 - p0) := by
  simp only [qubitPolarisation, if_neg hT]
  congr 1
  have hp := Real.exp_pos (-f / T)
  have h0 : p0 = 1 / (1 + Real.exp (-f / T)) := by
    rw [eq_div_iff (by positivity)]
    rw [hr] at hs
    linarith
  rw [h0] at hs ⊢
  linarith

/-- **C62 (documentation).** With the ratio `exp(freq/temp)` written in the docstring the difference has the opposite sign. -/
theorem C62_docstring (f T : ℝ) (hT : T ≠ 0) (hf : f ≠ 0) (p0 p1 : ℝ) (hs : p0 + p1 = 1) (hr : p1 = Real.exp (f / T) * p0) :
    qubitPolarisation f T = .ok (-(p1 - p0)) ∧ qubitPolarisation f T ≠ .ok (p1 - p0) := by
  have h1 : qubitPolarisation f T = .ok (-(p1 - p0)) := by
    have := C62_populations f T hT p1 p0 (by linarith) (by
      rw [hr, ← mul_assoc, ← Real.exp_add, neg_div, neg_add_cancel, Real.exp_zero, one_mul])
    rw [this]; congr 1; ring
  refine ⟨h1, ?_⟩
  rw [h1]
  intro h
  have h2 : -(p1 - p0) = p1 - p0 := by simpa using h
  have h3 : p1 = p0 := by linarith
  have h4 : p0 ≠ 0 := by rintro rfl; rw [h3] at hs; norm_num at hs
  rw [h3] at hr
  have h5 : Real.exp (f / T) = 1 := by
    have := mul_right_cancel₀ h4 ((one_mul p0).trans hr)
    exact this.symm
  rw [Real.exp_eq_one_iff] at h5
  exact div_ne_zero hf hT h5

/-- **C62 (range).** The polarisation lies strictly between `-1` and `1`, and is negative for positive frequency and temperature. -/
theorem C62_range (f T : ℝ) (hT : T ≠ 0) : ∃ p, qubitPolarisation f T = .ok p ∧ -1 < p ∧ p < 1 ∧ (0 < f → 0 < T → p < 0) := by
  refine ⟨1 - 2 * (1 / (1 + Real.exp (-f / T))), by simp [qubitPolarisation, hT], ?_⟩
  have hp := Real.exp_pos (-f / T)
  have h1 : 1 / (1 + Real.exp (-f / T)) < 1 := by rw [div_lt_one (by positivity)]; linarith
  have h2 : 0 < 1 / (1 + Real.exp (-f / T)) := by positivity
  refine ⟨by linarith, by linarith, ?_⟩
  intro hf hT'
  have h3 : Real.exp (-f / T) < 1 := by
    rw [Real.exp_lt_one_iff, neg_div]
    have : 0 < f / T := by positivity
    linarith
  have h4 : 1 / 2 < 1 / (1 + Real.exp (-f / T)) := one_div_lt_one_div_of_lt (by positivity) (by linarith)
  linarith

/-- **C62 (bosons and qubits).** The two functions agree: the polarisation is `-1 / (2 n + 1)`. -/
theorem C62_polarisation_nbar (f T : ℝ) (hx : 0 < f / T) : ∃ n, nBarThermal f T = .ok n ∧ qubitPolarisation f T = .ok (-1 / (2 * n + 1)) := by
  have hT : T ≠ 0 := by rintro rfl; simp at hx
  refine ⟨_, nbar_of_pos (by simpa using hx), ?_⟩
  simp only [qubitPolarisation, if_neg hT]
  congr 1
  rw [one_mul, mul_one, neg_div, Real.exp_neg]
  have h1 : 1 < Real.exp (f / T) := by rwa [Real.one_lt_exp_iff]
  generalize Real.exp (f / T) = y at h1
  have h2 : y - 1 ≠ 0 := by linarith
  have h3 : y ≠ 0 := by linarith
  have h4 : y + 1 ≠ 0 := by linarith
  have e1 : 2 * (1 / (y - 1)) + 1 = (y + 1) / (y - 1) := by field_simp; ring
  have e2 : 1 + y⁻¹ = (y + 1) / y := by field_simp
  rw [e1, e2, one_div_div, div_div_eq_mul_div]
  field_simp
  ring

/-- **C62 (thermal state).** It is the expectation value of `sigmaz` in the thermal state of the Hamiltonian `freq/2 sigmaz`. -/
theorem C62_thermal_state (f T : ℝ) (hT : T ≠ 0) : ∃ rho : Op 2, ∃ p : ℝ,
    normaliseMat (NormedSpace.exp ((-(f / (2 * T)) : ℂ) • sigmaz)) = some rho ∧ qubitPolarisation f T = .ok p ∧
    expectation sigmaz (.mat rho) = (p : ℂ) := by
  have hz : (-(f / (2 * T)) : ℂ) • sigmaz = diagonal ![((-(f / (2 * T)) : ℝ) : ℂ), (((f / (2 * T)) : ℝ) : ℂ)] := by
    ext i j
    fin_cases i <;> fin_cases j <;> simp [sigmaz]
  have he : NormedSpace.exp ((-(f / (2 * T)) : ℂ) • sigmaz) =
      diagonal ![((Real.exp (-(f / (2 * T))) : ℝ) : ℂ), ((Real.exp (f / (2 * T)) : ℝ) : ℂ)] := by
    rw [hz, Matrix.exp_diagonal]
    congr 1
    funext i
    rw [Pi.coe_exp]
    fin_cases i <;> simp [← Complex.exp_eq_exp_ℂ]
  set a := Real.exp (-(f / (2 * T))) with ha
  set b := Real.exp (f / (2 * T)) with hb
  have hap : 0 < a := Real.exp_pos _
  have hbp : 0 < b := Real.exp_pos _
  have htr : (diagonal ![(a : ℂ), (b : ℂ)]).trace = ((a + b : ℝ) : ℂ) := by
    simp [trace_diagonal, Fin.sum_univ_two]
  have hne : ((a + b : ℝ) : ℂ) ≠ 0 := by
    exact_mod_cast (add_pos hap hbp).ne'
  refine ⟨(1 / ((a + b : ℝ) : ℂ)) • diagonal ![(a : ℂ), (b : ℂ)], (a - b) / (a + b), ?_, ?_, ?_⟩
  · rw [he, normaliseMat, htr, if_neg hne]
  · rw [C62_polarisation, if_neg hT]
    congr 1
    rw [Real.tanh_eq_sinh_div_cosh, Real.sinh_eq, Real.cosh_eq, ← ha, ← hb]
    field_simp
    ring
  · have : expectationRaw sigmaz (.mat ((1 / ((a + b : ℝ) : ℂ)) • diagonal ![(a : ℂ), (b : ℂ)])) = (((a - b) / (a + b) : ℝ) : ℂ) := by
      rw [expectationRaw, QState.asMat, Matrix.mul_smul, trace_smul]
      have : (sigmaz * diagonal ![(a : ℂ), (b : ℂ)]).trace = (a : ℂ) - b := by
        simp only [trace, diag_apply, Matrix.mul_diagonal, Fin.sum_univ_two]
        simp [sigmaz, sub_eq_add_neg]
      rw [this]
      push_cast
      rw [smul_eq_mul]; ring
    simp only [expectation, this, Complex.ofReal_im, Complex.ofReal_re, ite_self]

example : qubitPolarisation (2 * Real.log 2) 1 = .ok (-(3 / 5)) := by
  have h := C62_populations (2 * Real.log 2) 1 one_ne_zero (4 / 5) (1 / 5) (by norm_num) (by
    rw [div_one, two_mul, Real.exp_neg, Real.exp_add, Real.exp_log (by norm_num)]
    norm_num)
  rw [h]; congr 1; norm_num

end Verif.Toolbox.Thermo
