import Mathlib.Probability.Distributions.Beta
import Mathlib.MeasureTheory.Integral.Gamma
import Mathlib.Analysis.SpecialFunctions.Gamma.Beta

/-!
# C50: random-matrix distributions

Model of `QuantumToolbox/rmtDistributions.py:36-137`, over the real numbers (floating point is not modelled); `gammaln` is the logarithm
of the absolute value of the Gamma function; an unsupported `beta` (unbound variable in Python) is `none`.
-/
namespace Verif.Toolbox.Rmt

open MeasureTheory Set Real

/-- `coef*dist` of `EigenVectorDist` (`rmtDistributions.py:61-70`). -/
noncomputable def eigenRaw (x : ℝ) (dim beta : ℕ) : Option ℝ :=
  if beta = 1 then
    some (exp (log |Gamma ((dim : ℝ) / 2)| - log |Gamma (((dim : ℝ) - 1) / 2)|) * ((1 - x) ^ (((dim : ℝ) - 3) / 2) / √(π * x)))
  else if beta = 2 then some (((dim : ℝ) - 1) * (1 - x) ^ ((dim : ℝ) - 2))
  else if beta = 4 then some (((dim : ℝ) - 1) * ((dim : ℝ) - 2) * (x * (1 - x) ^ ((dim : ℝ) - 1)))
  else none

/-- The values are clipped (`rmtDistributions.py:71-77`). -/
noncomputable def clip (val : ℝ) : ℝ :=
  let v := if val > 10 ^ 30 then 10 ^ 30 else val
  let v := if v < (10 ^ 30)⁻¹ then (10 ^ 30)⁻¹ else v
  if v ≠ 0 then v else (10 ^ 30)⁻¹

/-- `EigenVectorDist` (`rmtDistributions.py:36-78`). -/
noncomputable def EigenVectorDist (x : ℝ) (dim beta : ℕ) : Option ℝ := (eigenRaw x dim beta).map clip

/-- `WignerDyson` (`rmtDistributions.py:81-113`). -/
noncomputable def WignerDyson (x : ℝ) (beta : ℕ) : Option ℝ :=
  if beta = 1 then some (π / 2 * x ^ beta * exp (-π * x ^ 2 * (1 / 4)))
  else if beta = 2 then some (x ^ beta * (32 / π ^ 2) * exp (-4 * x ^ 2 / π))
  else if beta = 4 then some (x ^ beta * (2 ^ 18 / (3 ^ 6 * π ^ 3)) * exp (-64 * x ^ 2 / (9 * π)))
  else if beta = 0 then some (exp (-x))
  else none

/-- `Poissonian` (`rmtDistributions.py:117-137`). -/
noncomputable def Poissonian (x lam : ℝ) : ℝ := exp (-log |Gamma (x + 1)|) * lam ^ x * exp (-lam)

/-! ### Wigner-Dyson -/

theorem gauss_moment (q : ℕ) (b : ℝ) (hb : 0 < b) :
    ∫ x in Ioi (0 : ℝ), x ^ q * exp (-b * x ^ 2) = b ^ (-((q : ℝ) + 1) / 2) * (1 / 2) * Gamma (((q : ℝ) + 1) / 2) := by
  have hq : (-1 : ℝ) < q := by have : (0 : ℝ) ≤ q := Nat.cast_nonneg q; linarith
  rw [← integral_rpow_mul_exp_neg_mul_rpow (p := 2) (q := (q : ℝ)) (b := b) (by norm_num) hq hb]
  refine setIntegral_congr_fun measurableSet_Ioi fun x _ => ?_
  have h2 : x ^ (2 : ℝ) = x ^ 2 := by norm_cast
  simp only [rpow_natCast, h2]

theorem Gamma_three_half : Gamma (3 / 2) = √π / 2 := by
  have : (3 / 2 : ℝ) = 1 / 2 + 1 := by norm_num
  rw [this, Gamma_add_one (by norm_num), Gamma_one_half_eq]; ring

theorem Gamma_five_half : Gamma (5 / 2) = 3 / 4 * √π := by
  have : (5 / 2 : ℝ) = 3 / 2 + 1 := by norm_num
  rw [this, Gamma_add_one (by norm_num), Gamma_three_half]; ring

/-- The values are defined exactly for the four supported parameters, and are not negative. -/
theorem C50_wigner_nonneg (x : ℝ) (hx : 0 ≤ x) (beta : ℕ) :
    ((WignerDyson x beta).isSome ↔ beta ∈ ({0, 1, 2, 4} : Set ℕ)) ∧ ∀ v, WignerDyson x beta = some v → 0 ≤ v := by
  constructor
  · simp only [WignerDyson]
    by_cases h1 : beta = 1
    · simp [h1]
    by_cases h2 : beta = 2
    · simp [h2]
    by_cases h4 : beta = 4
    · simp [h4]
    by_cases h0 : beta = 0
    · simp [h0]
    · simp [h1, h2, h4, h0]
  · intro v hv
    have := pi_pos
    simp only [WignerDyson] at hv
    split at hv
    · cases hv; positivity
    · split at hv
      · cases hv; positivity
      · split at hv
        · cases hv; positivity
        · split at hv
          · cases hv; positivity
          · cases hv

/-- **C50 (Wigner-Dyson).** For each supported parameter the total mass on the positive half line is one. -/
theorem C50_wigner_mass (beta : ℕ) (hb : beta ∈ ({0, 1, 2, 4} : Set ℕ)) :
    ∫ x in Ioi (0 : ℝ), (WignerDyson x beta).getD 0 = 1 := by
  have hpi := pi_pos
  simp only [Set.mem_insert_iff, Set.mem_singleton_iff] at hb
  rcases hb with rfl | rfl | rfl | rfl
  · simp only [WignerDyson]
    simpa using integral_exp_neg_Ioi_zero
  · have h : ∀ x : ℝ, (WignerDyson x 1).getD 0 = π / 2 * (x ^ 1 * exp (-(π / 4) * x ^ 2)) := by
      intro x
      simp only [WignerDyson, if_true, Option.getD_some]
      rw [show -π * x ^ 2 * (1 / 4) = -(π / 4) * x ^ 2 by ring]; ring
    simp only [h]
    rw [integral_const_mul, gauss_moment 1 (π / 4) (by positivity)]
    have e : (-(((1 : ℕ) : ℝ) + 1) / 2) = -1 := by norm_num
    have e' : (((1 : ℕ) : ℝ) + 1) / 2 = 1 := by norm_num
    rw [e, e', rpow_neg_one, Gamma_one]
    field_simp
    norm_num
  · have h : ∀ x : ℝ, (WignerDyson x 2).getD 0 = 32 / π ^ 2 * (x ^ 2 * exp (-(4 / π) * x ^ 2)) := by
      intro x
      simp only [WignerDyson, if_true, Option.getD_some, show ((2 : ℕ) = 1) = False by simp, if_false]
      rw [show -4 * x ^ 2 / π = -(4 / π) * x ^ 2 by ring]; ring
    simp only [h]
    rw [integral_const_mul, gauss_moment 2 (4 / π) (by positivity)]
    have e' : (((2 : ℕ) : ℝ) + 1) / 2 = 3 / 2 := by norm_num
    have e : (-(((2 : ℕ) : ℝ) + 1) / 2) = -(3 / 2) := by norm_num
    rw [e, e', Gamma_three_half, rpow_neg (by positivity)]
    have h4 : (4 / π) ^ (3 / 2 : ℝ) = 8 / (π * √π) := by
      rw [show (3 / 2 : ℝ) = 1 + 1 / 2 by norm_num, rpow_add (by positivity), rpow_one, ← sqrt_eq_rpow, sqrt_div (by norm_num)]
      rw [show √(4 : ℝ) = 2 by rw [show (4 : ℝ) = 2 ^ 2 by norm_num]; exact sqrt_sq (by norm_num)]
      field_simp; norm_num
    rw [h4]
    have hs : √π ^ 2 = π := sq_sqrt hpi.le
    have hs0 : √π ≠ 0 := (sqrt_pos.2 hpi).ne'
    field_simp
    rw [hs]; ring
  · have h : ∀ x : ℝ, (WignerDyson x 4).getD 0 = 2 ^ 18 / (3 ^ 6 * π ^ 3) * (x ^ 4 * exp (-(64 / (9 * π)) * x ^ 2)) := by
      intro x
      simp only [WignerDyson, if_true, Option.getD_some, show ((4 : ℕ) = 1) = False by simp, show ((4 : ℕ) = 2) = False by simp, if_false]
      rw [show -64 * x ^ 2 / (9 * π) = -(64 / (9 * π)) * x ^ 2 by ring]; ring
    simp only [h]
    rw [integral_const_mul, gauss_moment 4 (64 / (9 * π)) (by positivity)]
    have e' : (((4 : ℕ) : ℝ) + 1) / 2 = 5 / 2 := by norm_num
    have e : (-(((4 : ℕ) : ℝ) + 1) / 2) = -(5 / 2) := by norm_num
    rw [e, e', Gamma_five_half, rpow_neg (by positivity)]
    have h4 : (64 / (9 * π)) ^ (5 / 2 : ℝ) = 64 ^ 2 * 8 / (9 ^ 2 * 3 * π ^ 2 * √π) := by
      rw [show (5 / 2 : ℝ) = (2 : ℕ) + 1 / 2 by norm_num, rpow_add (by positivity), rpow_natCast, ← sqrt_eq_rpow, sqrt_div (by norm_num),
        sqrt_mul (by norm_num)]
      rw [show √(64 : ℝ) = 8 by rw [show (64 : ℝ) = 8 ^ 2 by norm_num]; exact sqrt_sq (by norm_num)]
      rw [show √(9 : ℝ) = 3 by rw [show (9 : ℝ) = 3 ^ 2 by norm_num]; exact sqrt_sq (by norm_num)]
      field_simp
    rw [h4]
    have hs : √π ^ 2 = π := sq_sqrt hpi.le
    have hs0 : √π ≠ 0 := (sqrt_pos.2 hpi).ne'
    field_simp
    rw [hs]; ring

/-! ### Eigenvectors -/

/-- The mass of a multiple of a beta density. -/
theorem beta_mass (a b c : ℝ) (ha : 0 < a) (hb : 0 < b) (hc : 0 ≤ c) (f : ℝ → ℝ)
    (hf : ∀ x ∈ Ioo (0 : ℝ) 1, f x = c * (1 / ProbabilityTheory.beta a b * x ^ (a - 1) * (1 - x) ^ (b - 1))) :
    ∫⁻ x in Ioo (0 : ℝ) 1, ENNReal.ofReal (f x) = ENNReal.ofReal c := by
  have h1 : ∫⁻ x in Ioo (0 : ℝ) 1, ENNReal.ofReal (f x) =
      ∫⁻ x in Ioo (0 : ℝ) 1, ENNReal.ofReal c * ENNReal.ofReal (1 / ProbabilityTheory.beta a b * x ^ (a - 1) * (1 - x) ^ (b - 1)) := by
    refine setLIntegral_congr_fun measurableSet_Ioo fun x hx => ?_
    rw [hf x hx, ENNReal.ofReal_mul hc]
  rw [h1, lintegral_const_mul' _ _ ENNReal.ofReal_ne_top, ← ProbabilityTheory.lintegral_betaPDF,
    ProbabilityTheory.lintegral_betaPDF_eq_one ha hb, mul_one]

/-- **C50 (eigenvectors, beta 1 and 2).** Before clipping, the mass on the unit interval is one in every dimension from two on. -/
theorem C50_eigen_mass (dim : ℕ) (hd : 2 ≤ dim) (beta : ℕ) (hb : beta = 1 ∨ beta = 2) :
    ∫⁻ x in Ioo (0 : ℝ) 1, ENNReal.ofReal ((eigenRaw x dim beta).getD 0) = 1 := by
  have hd' : (2 : ℝ) ≤ dim := by exact_mod_cast hd
  rw [← ENNReal.ofReal_one]
  rcases hb with rfl | rfl
  · refine beta_mass (1 / 2) (((dim : ℝ) - 1) / 2) 1 (by norm_num) (by linarith) zero_le_one _ ?_
    rintro x ⟨hx0, hx1⟩
    simp only [eigenRaw, if_true, Option.getD_some, one_mul, ProbabilityTheory.beta]
    have g1 : 0 < Gamma ((dim : ℝ) / 2) := Gamma_pos_of_pos (by linarith)
    have g2 : 0 < Gamma (((dim : ℝ) - 1) / 2) := Gamma_pos_of_pos (by linarith)
    rw [exp_sub, exp_log (abs_pos.2 g1.ne'), exp_log (abs_pos.2 g2.ne'), abs_of_pos g1, abs_of_pos g2, Gamma_one_half_eq,
      show (1 / 2 : ℝ) + ((dim : ℝ) - 1) / 2 = (dim : ℝ) / 2 by ring, show (1 / 2 : ℝ) - 1 = -(1 / 2) by norm_num,
      show ((dim : ℝ) - 1) / 2 - 1 = ((dim : ℝ) - 3) / 2 by ring, rpow_neg hx0.le, ← sqrt_eq_rpow, sqrt_mul pi_pos.le]
    have := (sqrt_pos.2 pi_pos).ne'
    have := (sqrt_pos.2 hx0).ne'
    field_simp
  · refine beta_mass 1 ((dim : ℝ) - 1) 1 (by norm_num) (by linarith) zero_le_one _ ?_
    rintro x ⟨hx0, hx1⟩
    simp only [eigenRaw, if_true, Option.getD_some, one_mul, ProbabilityTheory.beta, show ((2 : ℕ) = 1) = False by simp, if_false]
    have g2 : 0 < Gamma ((dim : ℝ) - 1) := Gamma_pos_of_pos (by linarith)
    have hG : Gamma (1 + ((dim : ℝ) - 1)) = ((dim : ℝ) - 1) * Gamma ((dim : ℝ) - 1) := by
      rw [add_comm, Gamma_add_one (by linarith)]
    rw [hG, Gamma_one, sub_self, rpow_zero, show (dim : ℝ) - 1 - 1 = (dim : ℝ) - 2 by ring]
    field_simp

/-- False for the code: for `beta = 4` the mass is `(dim-1)(dim-2)/(dim(dim+1))`, never one. -/
theorem C50_eigen_four (dim : ℕ) (hd : 2 ≤ dim) :
    ∫⁻ x in Ioo (0 : ℝ) 1, ENNReal.ofReal ((eigenRaw x dim 4).getD 0) =
      ENNReal.ofReal (((dim : ℝ) - 1) * ((dim : ℝ) - 2) / ((dim : ℝ) * ((dim : ℝ) + 1))) ∧
    ((dim : ℝ) - 1) * ((dim : ℝ) - 2) / ((dim : ℝ) * ((dim : ℝ) + 1)) < 1 := by
  have hd' : (2 : ℝ) ≤ dim := by exact_mod_cast hd
  have h0 : (0 : ℝ) < dim := by linarith
  constructor
  · refine beta_mass 2 (dim : ℝ) _ (by norm_num) h0 (by apply div_nonneg <;> nlinarith) _ ?_
    rintro x ⟨hx0, hx1⟩
    simp only [eigenRaw, if_true, Option.getD_some, ProbabilityTheory.beta, show ((4 : ℕ) = 1) = False by simp,
      show ((4 : ℕ) = 2) = False by simp, if_false]
    have g2 : 0 < Gamma (dim : ℝ) := Gamma_pos_of_pos h0
    have hG : Gamma (2 + (dim : ℝ)) = ((dim : ℝ) + 1) * ((dim : ℝ) * Gamma (dim : ℝ)) := by
      rw [show (2 : ℝ) + dim = ((dim : ℝ) + 1) + 1 by ring, Gamma_add_one (by linarith), Gamma_add_one h0.ne']
    rw [hG, Gamma_two, show (2 : ℝ) - 1 = 1 by norm_num, rpow_one]
    have : (dim : ℝ) + 1 ≠ 0 := by linarith
    field_simp
  · rw [div_lt_one (by positivity)]
    nlinarith

theorem clip_eq (v : ℝ) : clip v = max (min v (10 ^ 30)) (10 ^ 30)⁻¹ := by
  have h1 : (0 : ℝ) < (10 ^ 30)⁻¹ := by positivity
  simp only [clip]
  rcases lt_or_ge (10 ^ 30 : ℝ) v with h | h
  · have hlt : ¬ ((10 : ℝ) ^ 30 < (10 ^ 30)⁻¹) := by norm_num
    rw [if_pos h, min_eq_right h.le, if_neg hlt, max_eq_left (not_lt.1 hlt), if_pos (by norm_num)]
  · rw [if_neg (not_lt.2 h), min_eq_left h]
    rcases lt_or_ge v (10 ^ 30)⁻¹ with h' | h'
    · rw [if_pos h', max_eq_right h'.le, if_pos h1.ne']
    · rw [if_neg (not_lt.2 h'), max_eq_left h', if_pos (by linarith)]

/-- **C50 (what is returned), partial.** The returned value lies between `10^-30` and `10^30`, so it is positive, and it equals the
density wherever that lies in this range.  For `beta` 1 and 2 its mass is at most `1 + 10^-30`.  Missing: mass exactly one, which fails
because of the clipping (`C50_clipped`). -/
theorem C50_eigen_partial (dim : ℕ) (hd : 2 ≤ dim) (beta : ℕ) (hb : beta = 1 ∨ beta = 2) :
    (∀ x v, EigenVectorDist x dim beta = some v → (10 ^ 30)⁻¹ ≤ v ∧ v ≤ 10 ^ 30) ∧
    (∀ x r, eigenRaw x dim beta = some r → (10 ^ 30)⁻¹ ≤ r → r ≤ 10 ^ 30 → EigenVectorDist x dim beta = some r) ∧
    ∫⁻ x in Ioo (0 : ℝ) 1, ENNReal.ofReal ((EigenVectorDist x dim beta).getD 0) ≤ 1 + ENNReal.ofReal (10 ^ 30)⁻¹ := by
  have hle : ((10 : ℝ) ^ 30)⁻¹ ≤ 10 ^ 30 := by norm_num
  refine ⟨?_, ?_, ?_⟩
  · intro x v hv
    simp only [EigenVectorDist, Option.map_eq_some_iff] at hv
    obtain ⟨r, _, rfl⟩ := hv
    rw [clip_eq]
    exact ⟨le_max_right _ _, max_le (min_le_right _ _) hle⟩
  · intro x r hr h1 h2
    rw [EigenVectorDist, hr, Option.map_some, clip_eq, min_eq_left h2, max_eq_left h1]
  · have hsome : ∀ x, ∃ r, eigenRaw x dim beta = some r := by
      intro x
      rcases hb with rfl | rfl
      · exact ⟨_, rfl⟩
      · exact ⟨_, rfl⟩
    calc ∫⁻ x in Ioo (0 : ℝ) 1, ENNReal.ofReal ((EigenVectorDist x dim beta).getD 0)
        ≤ ∫⁻ x in Ioo (0 : ℝ) 1, (ENNReal.ofReal ((eigenRaw x dim beta).getD 0) + ENNReal.ofReal (10 ^ 30)⁻¹) := by
          refine lintegral_mono fun x => ?_
          obtain ⟨r, hr⟩ := hsome x
          simp only [EigenVectorDist, hr, Option.map_some, Option.getD_some, clip_eq]
          rcases le_total (min r (10 ^ 30)) (10 ^ 30)⁻¹ with h | h
          · rw [max_eq_right h]; exact le_add_self
          · rw [max_eq_left h]
            exact (ENNReal.ofReal_le_ofReal (min_le_left _ _)).trans le_self_add
      _ = 1 + ENNReal.ofReal (10 ^ 30)⁻¹ := by
          rw [lintegral_add_right _ measurable_const, C50_eigen_mass dim hd beta hb]
          simp

/-- False for the code: the clipping changes the density wherever it is below `10^-30`, for example for `beta = 2` in dimension 33 at
`x = 0.999`. -/
theorem C50_clipped : ∃ r, eigenRaw (999 / 1000) 33 2 = some r ∧ r < (10 ^ 30)⁻¹ ∧ EigenVectorDist (999 / 1000) 33 2 = some (10 ^ 30)⁻¹ := by
  have hr : eigenRaw (999 / 1000) 33 2 = some (32 * (1 / 1000) ^ 31) := by
    simp only [eigenRaw, show ((2 : ℕ) = 1) = False by simp, if_false, if_true, Option.some.injEq]
    rw [show ((33 : ℕ) : ℝ) - 2 = ((31 : ℕ) : ℝ) by norm_num, rpow_natCast]
    norm_num
  have hlt : (32 : ℝ) * (1 / 1000) ^ 31 < (10 ^ 30)⁻¹ := by norm_num
  refine ⟨_, hr, hlt, ?_⟩
  rw [EigenVectorDist, hr, Option.map_some, clip_eq, min_eq_left (by norm_num), max_eq_right hlt.le]

/-- Values: the uniform distribution in dimension two. -/
example : eigenRaw (1 / 3) 2 2 = some 1 := by
  simp only [eigenRaw, show ((2 : ℕ) = 1) = False by simp, if_false, if_true, Option.some.injEq]
  norm_num

/-! ### Poisson -/

/-- **C50 (Poisson).** At the natural numbers `Poissonian` is the Poisson distribution: non-negative with total mass one. -/
theorem C50_poisson (lam : ℝ) (hl : 0 ≤ lam) :
    (∀ n : ℕ, Poissonian n lam = lam ^ n / (n.factorial : ℝ) * exp (-lam)) ∧ (∀ n : ℕ, 0 ≤ Poissonian n lam) ∧
    HasSum (fun n : ℕ => Poissonian n lam) 1 := by
  have h : ∀ n : ℕ, Poissonian n lam = lam ^ n / (n.factorial : ℝ) * exp (-lam) := by
    intro n
    have hf : (0 : ℝ) < n.factorial := by exact_mod_cast n.factorial_pos
    rw [Poissonian, Gamma_nat_eq_factorial, abs_of_pos hf, exp_neg, exp_log hf, rpow_natCast]
    ring
  refine ⟨h, fun n => by rw [h]; positivity, ?_⟩
  simp only [h]
  have := (NormedSpace.expSeries_div_hasSum_exp (𝔸 := ℝ) lam).mul_right (exp (-lam))
  rw [← Real.exp_eq_exp_ℝ, ← exp_add, add_neg_cancel, exp_zero] at this
  exact this

end Verif.Toolbox.Rmt
