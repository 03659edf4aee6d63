import Verif.Toolbox.SuperPos
import Verif.Toolbox.EvolutionLemmas
import Mathlib.Analysis.Matrix.Order
import Mathlib.Analysis.Matrix.PosDef
import Mathlib.Analysis.Matrix.Spectrum
import Mathlib.Algebra.Order.Chebyshev
import Mathlib.Analysis.SpecialFunctions.Log.NegMulLog
import Mathlib.Analysis.Convex.Jensen

/-!
# C46 expectation and fidelity, C49 IPR, purity and entropy
-/
namespace Verif.Toolbox
open Matrix
open scoped ComplexOrder

variable {d : ℕ}

/-- A normalised density matrix. -/
structure IsDensity (rho : Op d) : Prop where
  pos : rho.PosSemidef
  tr  : rho.trace = 1

/-! ## Sums of squares -/

/-- Squared Frobenius norm. -/
noncomputable def frobSq {m n : ℕ} (A : Matrix (Fin m) (Fin n) ℂ) : ℝ := ∑ i, ∑ j, ‖A i j‖ ^ 2

theorem trace_conjTranspose_mul {m n : ℕ} (A : Matrix (Fin m) (Fin n) ℂ) : (Aᴴ * A).trace = (frobSq A : ℂ) := by
  simp only [Matrix.trace, Matrix.diag_apply, Matrix.mul_apply, Matrix.conjTranspose_apply, frobSq]
  push_cast
  rw [Finset.sum_comm]
  apply Finset.sum_congr rfl; intro i _
  apply Finset.sum_congr rfl; intro j _
  rw [mul_comm, Complex.star_def, Complex.mul_conj, Complex.normSq_eq_norm_sq]; push_cast; rfl

theorem norm_sum_mul_sq {n : ℕ} (a b : Fin n → ℂ) : ‖∑ k, a k * b k‖ ^ 2 ≤ (∑ k, ‖a k‖ ^ 2) * ∑ k, ‖b k‖ ^ 2 := by
  calc ‖∑ k, a k * b k‖ ^ 2 ≤ (∑ k, ‖a k‖ * ‖b k‖) ^ 2 := by
        gcongr
        calc ‖∑ k, a k * b k‖ ≤ ∑ k, ‖a k * b k‖ := norm_sum_le _ _
          _ = _ := by simp only [norm_mul]
    _ ≤ _ := Finset.sum_mul_sq_le_sq_mul_sq _ _ _

theorem frobSq_mul_le {l m n : ℕ} (A : Matrix (Fin l) (Fin m) ℂ) (B : Matrix (Fin m) (Fin n) ℂ) :
    frobSq (A * B) ≤ frobSq A * frobSq B := by
  simp only [frobSq, Matrix.mul_apply]
  calc ∑ i, ∑ j, ‖∑ k, A i k * B k j‖ ^ 2 ≤ ∑ i, ∑ j, (∑ k, ‖A i k‖ ^ 2) * ∑ k, ‖B k j‖ ^ 2 :=
        Finset.sum_le_sum fun i _ => Finset.sum_le_sum fun j _ => norm_sum_mul_sq _ _
    _ = (∑ i, ∑ k, ‖A i k‖ ^ 2) * ∑ k, ∑ j, ‖B k j‖ ^ 2 := by
        rw [Finset.sum_comm (f := fun k j => ‖B k j‖ ^ 2), Finset.sum_mul_sum]

theorem frobSq_nonneg {m n : ℕ} (A : Matrix (Fin m) (Fin n) ℂ) : 0 ≤ frobSq A :=
  Finset.sum_nonneg fun _ _ => Finset.sum_nonneg fun _ _ => by positivity

theorem posSemidef_factor {rho : Op d} (h : rho.PosSemidef) : ∃ B : Op d, rho = Bᴴ * B := by
  open scoped MatrixOrder in
  obtain ⟨B, hB⟩ := CStarAlgebra.nonneg_iff_eq_star_mul_self.mp h.nonneg
  exact ⟨B, hB⟩

/-- `tr(rho sigma)` of two positive matrices lies between zero and the product of the traces. -/
theorem trace_mul_bounds {rho sigma : Op d} (h1 : rho.PosSemidef) (h2 : sigma.PosSemidef) :
    ∃ r : ℝ, (rho * sigma).trace = r ∧ 0 ≤ r ∧ r ≤ rho.trace.re * sigma.trace.re := by
  obtain ⟨A, rfl⟩ := posSemidef_factor h1
  obtain ⟨B, rfl⟩ := posSemidef_factor h2
  refine ⟨frobSq (A * Bᴴ), ?_, frobSq_nonneg _, ?_⟩
  · rw [← trace_conjTranspose_mul, conjTranspose_mul, conjTranspose_conjTranspose]
    rw [Matrix.trace_mul_comm (B * Aᴴ), Matrix.mul_assoc, Matrix.trace_mul_comm Aᴴ]
    simp only [Matrix.mul_assoc]
  · rw [trace_conjTranspose_mul, trace_conjTranspose_mul, Complex.ofReal_re, Complex.ofReal_re]
    refine (frobSq_mul_le _ _).trans (le_of_eq ?_)
    congr 1
    simp only [frobSq, Matrix.conjTranspose_apply, norm_star]
    exact Finset.sum_comm

/-! ## Kets and density matrices -/

theorem innerProd_eq (a b : Ket d) : innerProd a (some b) = ∑ i, (starRingEnd ℂ) (b i 0) * a i 0 := by
  simp [innerProd, Matrix.trace, Matrix.mul_apply, hc]

theorem outerProd_apply (a b : Ket d) (i j : Fin d) : outerProd a (some b) i j = a i 0 * (starRingEnd ℂ) (b j 0) := by
  simp [outerProd, Matrix.mul_apply, hc]

theorem outerProd_self_apply (a : Ket d) (i j : Fin d) : outerProd a none i j = a i 0 * (starRingEnd ℂ) (a j 0) := by
  simp [outerProd, Matrix.mul_apply, hc]

theorem outerProd_density (k : Ket d) (hk : IsUnit k) : IsDensity (outerProd k) := by
  constructor
  · have : outerProd k = k * kᴴ := by simp [outerProd, hc_eq]
    rw [this]; exact Matrix.posSemidef_self_mul_conjTranspose k
  · rw [Matrix.trace]
    simp only [Matrix.diag_apply, outerProd_self_apply, Complex.mul_conj, Complex.normSq_eq_norm_sq]
    have : ((∑ i, ‖k i 0‖ ^ 2 : ℝ) : ℂ) = 1 := by rw [hk]; simp
    push_cast at this ⊢
    exact this

/-- **C46 (inner and outer products).** `<b|a> = tr |a><b|`, conjugate symmetry, and `|a><b|c> = <b|c> |a>`. -/
theorem C46_inner_outer (a b c : Ket d) :
    innerProd a (some b) = (outerProd a (some b)).trace ∧
    innerProd b (some a) = (starRingEnd ℂ) (innerProd a (some b)) ∧
    outerProd a (some b) * c = innerProd c (some b) • a := by
  refine ⟨?_, ?_, ?_⟩
  · rw [innerProd_eq, Matrix.trace]
    apply Finset.sum_congr rfl
    intro i _; rw [Matrix.diag_apply, outerProd_apply, mul_comm]
  · rw [innerProd_eq, innerProd_eq, map_sum]
    apply Finset.sum_congr rfl
    intro i _; rw [map_mul, Complex.conj_conj, mul_comm]
  · ext i j
    obtain rfl : j = 0 := Subsingleton.elim _ _
    rw [Matrix.mul_apply, Matrix.smul_apply, smul_eq_mul, innerProd_eq, Finset.sum_mul]
    apply Finset.sum_congr rfl
    intro k _; rw [outerProd_apply]; ring

/-- **C46 (expectation, representation).** A ket and its density matrix give the same expectation value, namely `<k|op|k>`, in
every dimension but one. -/
theorem C46_expectation_representation (hd : d ≠ 1) (op : Op d) (k : Ket d) :
    expectation op (.ket k) = expectation op (.mat (outerProd k)) ∧
    expectationRaw op (.ket k) = innerProd (op * k) (some k) := by
  constructor
  · simp [expectation, expectationRaw, QState.asMat, hd]
  · simp only [expectationRaw, QState.asMat, ne_eq, hd, not_false_eq_true, if_true]
    rw [innerProd_eq, Matrix.trace]
    apply Finset.sum_congr rfl
    intro i _
    rw [Matrix.diag_apply, Matrix.mul_apply, Matrix.mul_apply, Finset.mul_sum]
    apply Finset.sum_congr rfl
    intro j _; rw [outerProd_self_apply]; ring

/-- **C46 (exception).** In dimension one a ket is taken for a density matrix: the ket `(i)` has expectation value `i` (the
`1 x 1` identity), its density matrix has `1`. -/
theorem C46_dimension_one_differs :
    expectation (1 : Op 1) (.ket !![Complex.I]) = Complex.I ∧
    expectation (1 : Op 1) (.mat (outerProd !![Complex.I])) = 1 := by
  constructor
  · have : expectationRaw (1 : Op 1) (.ket !![Complex.I]) = Complex.I := by
      simp [expectationRaw, QState.asMat, Matrix.trace]
    simp only [expectation, this]
    rw [if_neg]; norm_num
  · have : expectationRaw (1 : Op 1) (.mat (outerProd !![Complex.I])) = 1 := by
      simp [expectationRaw, QState.asMat, Matrix.trace, outerProd_self_apply]
    simp only [expectation, this]
    norm_num

theorem trace_mul_hermitian_real {A rho : Op d} (hA : Aᴴ = A) (hr : rhoᴴ = rho) : ((A * rho).trace).im = 0 := by
  have : (starRingEnd ℂ) (A * rho).trace = (A * rho).trace := by
    rw [starRingEnd_apply, ← Matrix.trace_conjTranspose, conjTranspose_mul, hA, hr, Matrix.trace_mul_comm]
  exact Complex.conj_eq_iff_im.mp this

/-- **C46 (real).** Hermitian operators have real expectation values, without any rounding, for every Hermitian state matrix and
every ket (dimension not one). -/
theorem C46_expectation_real (op : Op d) (s : QState d) (hop : hc op = op) (hs : hc s.asMat = s.asMat) :
    expectation op s = expectationRaw op s ∧ (expectation op s).im = 0 := by
  rw [hc_eq] at hop hs
  have h := trace_mul_hermitian_real hop hs
  have h' : (expectationRaw op s).im = 0 := h
  constructor
  · simp only [expectation, h', abs_zero]
    rw [if_pos (by positivity)]
    exact Complex.ext rfl (by simp [h'])
  · simp only [expectation, h', abs_zero]
    rw [if_pos (by positivity)]
    exact Complex.ofReal_im _

theorem asMat_ket_herm (hd : d ≠ 1) (k : Ket d) : hc (QState.ket k).asMat = (QState.ket k).asMat := by
  simp only [QState.asMat, ne_eq, hd, not_false_eq_true, if_true]
  ext i j
  simp [hc, outerProd_self_apply, mul_comm]

/-- **C46 (linearity).** The expectation value is linear in the operator up to the rounding of tiny imaginary parts; for
Hermitian operators and real coefficients exactly. -/
theorem C46_expectation_linear (a b : ℂ) (A B : Op d) (s : QState d) :
    expectationRaw (a • A + b • B) s = a * expectationRaw A s + b * expectationRaw B s ∧
    (∀ op : Op d, ‖expectation op s - expectationRaw op s‖ ≤ (1 / 2) / 10 ^ 12) := by
  constructor
  · simp [expectationRaw, Matrix.add_mul, Matrix.trace_add, Matrix.trace_smul]
  · intro op
    simp only [expectation]
    split_ifs with h
    · have : ((expectationRaw op s).re : ℂ) - expectationRaw op s = -((expectationRaw op s).im * Complex.I) := by
        linear_combination (-1 : ℂ) * (Complex.re_add_im (expectationRaw op s)).symm
      rw [this, norm_neg, norm_mul, Complex.norm_I, mul_one, Complex.norm_real]; exact h
    · rw [sub_self, norm_zero]; positivity

theorem C46_expectation_linear_hermitian (a b : ℝ) (A B : Op d) (hA : hc A = A) (hB : hc B = B) (s : QState d)
    (hs : hc s.asMat = s.asMat) :
    expectation ((a : ℂ) • A + (b : ℂ) • B) s = a * expectation A s + b * expectation B s := by
  have hAB : hc ((a : ℂ) • A + (b : ℂ) • B) = (a : ℂ) • A + (b : ℂ) • B := by
    rw [hc_eq] at *
    simp [conjTranspose_add, conjTranspose_smul, hA, hB]
  rw [(C46_expectation_real _ s hAB hs).1, (C46_expectation_real A s hA hs).1, (C46_expectation_real B s hB hs).1,
    (C46_expectation_linear a b A B s).1]

/-- `|<k2|k1>|^2 = tr(|k1><k1| |k2><k2|)`. -/
theorem overlap_eq_trace (k1 k2 : Ket d) :
    ((‖innerProd k1 (some k2)‖ ^ 2 : ℝ) : ℂ) = (outerProd k1 * outerProd k2).trace := by
  have h1 : outerProd k1 * outerProd k2 = innerProd k2 (some k1) • outerProd k1 (some k2) := by
    ext i j
    rw [Matrix.mul_apply, Matrix.smul_apply, smul_eq_mul, innerProd_eq, outerProd_apply, Finset.sum_mul]
    apply Finset.sum_congr rfl
    intro k _; rw [outerProd_self_apply, outerProd_self_apply]; ring
  rw [h1, Matrix.trace_smul, ← (C46_inner_outer k1 k2 k1).1, (C46_inner_outer k1 k2 k1).2.1, smul_eq_mul, mul_comm,
    Complex.mul_conj, Complex.normSq_eq_norm_sq]

/-- **C46 (fidelity, representation).** Each of the two states can be given as ket or as density matrix without changing the
fidelity (dimension not one). -/
theorem C46_fidelity_representation (hd : d ≠ 1) (s1 s2 : QState d) :
    fidelityPure s1 s2 = ((s1.asMat * s2.asMat).trace).re := by
  cases s1 with
  | mat r => rfl
  | ket k1 =>
    cases s2 with
    | mat r => rfl
    | ket k2 =>
      simp only [fidelityPure, ne_eq, hd, not_false_eq_true, if_true, QState.asMat]
      rw [← overlap_eq_trace, Complex.ofReal_re]

/-- **C46 (fidelity, symmetric).** -/
theorem C46_fidelity_symmetric (s1 s2 : QState d) : fidelityPure s1 s2 = fidelityPure s2 s1 := by
  by_cases hd : d = 1
  · have : ∀ s t : QState d, fidelityPure s t = ((s.asMat * t.asMat).trace).re := by
      intro s t
      cases s <;> cases t <;> simp [fidelityPure, hd]
    rw [this, this, Matrix.trace_mul_comm]
  · rw [C46_fidelity_representation hd, C46_fidelity_representation hd, Matrix.trace_mul_comm]

/-- **C46 (fidelity, range).** For states (unit kets, density matrices) the fidelity lies in `[0, 1]`. -/
theorem C46_fidelity_range (hd : d ≠ 1) (s1 s2 : QState d) (h1 : IsDensity s1.asMat) (h2 : IsDensity s2.asMat) :
    0 ≤ fidelityPure s1 s2 ∧ fidelityPure s1 s2 ≤ 1 := by
  rw [C46_fidelity_representation hd]
  obtain ⟨r, hr, h0, hle⟩ := trace_mul_bounds h1.pos h2.pos
  rw [hr, Complex.ofReal_re]
  rw [h1.tr, h2.tr] at hle
  exact ⟨h0, by simpa using hle⟩

/-- **C46 (fidelity of equal states).** A pure state has fidelity one with itself, and for unit kets fidelity one means equality
up to a phase. -/
theorem C46_fidelity_self (hd : d ≠ 1) (k : Ket d) (hk : IsUnit k) :
    fidelityPure (.ket k) (.ket k) = 1 ∧ fidelityPure (.ket k) (.mat (outerProd k)) = 1 := by
  have h : fidelityPure (.ket k) (.ket k) = 1 := by
    simp only [fidelityPure, ne_eq, hd, not_false_eq_true, if_true]
    have : innerProd k (some k) = 1 := by
      have := innerProd_self k
      rw [hk] at this
      simpa [innerProd] using this
    rw [this]; simp
  refine ⟨h, ?_⟩
  rw [C46_fidelity_representation hd] at h ⊢
  simpa [QState.asMat, hd] using h

/-- **C46 (fidelity one).** Two unit kets have fidelity one only if they differ by a phase. -/
theorem C46_fidelity_one (hd : d ≠ 1) (k1 k2 : Ket d) (h1 : IsUnit k1) (h2 : IsUnit k2)
    (h : fidelityPure (.ket k1) (.ket k2) = 1) : ∃ c : ℂ, ‖c‖ = 1 ∧ k1 = c • k2 := by
  simp only [fidelityPure, ne_eq, hd, not_false_eq_true, if_true] at h
  set c := innerProd k1 (some k2) with hc
  refine ⟨c, ?_, ?_⟩
  · have h0 := norm_nonneg c; nlinarith
  · -- the norm of `k1 - c k2` vanishes
    have e : ∑ i, ‖(k1 - c • k2) i 0‖ ^ 2 = 0 := by
      have key : ((∑ i, ‖(k1 - c • k2) i 0‖ ^ 2 : ℝ) : ℂ) = 0 := by
        have e1 : ((∑ i, ‖k1 i 0‖ ^ 2 : ℝ) : ℂ) = 1 := by rw [h1]; simp
        have e2 : ((∑ i, ‖k2 i 0‖ ^ 2 : ℝ) : ℂ) = 1 := by rw [h2]; simp
        have e3 : c * (starRingEnd ℂ) c = 1 := by
          rw [Complex.mul_conj, Complex.normSq_eq_norm_sq, h]; simp
        have e4 : ∑ i, (starRingEnd ℂ) (k2 i 0) * k1 i 0 = c := by rw [hc, innerProd_eq]
        have e5 : ∑ i, (starRingEnd ℂ) (k1 i 0) * k2 i 0 = (starRingEnd ℂ) c := by
          rw [← e4, map_sum]; apply Finset.sum_congr rfl; intro i _; rw [map_mul, Complex.conj_conj, mul_comm]
        push_cast at e1 e2 ⊢
        have sq : ∀ z : ℂ, ((‖z‖ : ℝ) : ℂ) ^ 2 = (starRingEnd ℂ) z * z := by
          intro z; rw [mul_comm, Complex.mul_conj, Complex.normSq_eq_norm_sq]; push_cast; rfl
        simp only [sq] at e1 e2 ⊢
        have : ∀ i, (starRingEnd ℂ) ((k1 - c • k2) i 0) * (k1 - c • k2) i 0 =
            (starRingEnd ℂ) (k1 i 0) * k1 i 0 - c * ((starRingEnd ℂ) (k1 i 0) * k2 i 0)
            - (starRingEnd ℂ) c * ((starRingEnd ℂ) (k2 i 0) * k1 i 0)
            + c * (starRingEnd ℂ) c * ((starRingEnd ℂ) (k2 i 0) * k2 i 0) := by
          intro i
          simp only [Matrix.sub_apply, Matrix.smul_apply, smul_eq_mul, map_sub, map_mul]; ring
        simp only [this, Finset.sum_add_distrib, Finset.sum_sub_distrib, ← Finset.mul_sum, e1, e2, e4, e5]
        linear_combination (-1 : ℂ) * e3
      exact_mod_cast key
    have := (Finset.sum_eq_zero_iff_of_nonneg (fun i _ => by positivity)).mp e
    ext i j
    obtain rfl : j = 0 := Subsingleton.elim _ _
    have hi := this i (Finset.mem_univ i)
    have hi' : (k1 - c • k2) i 0 = 0 := by simpa using hi
    exact sub_eq_zero.mp hi'

/-! ## C49 -/

/-- Bounds for `1 / sum p_i^2` of a probability distribution. -/
theorem ipr_bounds {n : ℕ} (p : Fin n → ℝ) (h0 : ∀ i, 0 ≤ p i) (h1 : ∑ i, p i = 1) :
    1 ≤ 1 / ∑ i, p i ^ 2 ∧ 1 / ∑ i, p i ^ 2 ≤ n := by
  have hle : ∑ i, p i ^ 2 ≤ 1 := by
    rw [← h1]
    apply Finset.sum_le_sum
    intro i _
    have : p i ≤ 1 := by rw [← h1]; exact Finset.single_le_sum (fun j _ => h0 j) (Finset.mem_univ i)
    nlinarith [h0 i]
  have hcs : 1 ≤ (n : ℝ) * ∑ i, p i ^ 2 := by
    have := @sq_sum_le_card_mul_sum_sq _ ℝ _ _ _ _ (Finset.univ : Finset (Fin n)) p
    rw [h1] at this
    simpa using this
  have hpos : 0 < ∑ i, p i ^ 2 := by
    rcases (Finset.sum_nonneg fun i _ => sq_nonneg (p i) : 0 ≤ ∑ i, p i ^ 2).lt_or_eq with h | h
    · exact h
    · rw [← h] at hcs; norm_num at hcs
  constructor
  · rw [le_div_iff₀ hpos]; linarith
  · rw [div_le_iff₀ hpos]; exact hcs

/-- **C49 (IPR).** For a unit ket the inverse participation ratio lies between one and the dimension. -/
theorem C49_ipr_bounds (k : Ket d) (hk : IsUnit k) : 1 ≤ iprKetNB k ∧ iprKetNB k ≤ d := by
  have := ipr_bounds (fun i => ‖k i 0‖ ^ 2) (fun i => by positivity) hk
  simpa [iprKetNB, ← pow_mul] using this

/-- **C49 (IPR, extreme values).** One exactly for basis states (up to a phase); the dimension for uniform superpositions. -/
theorem C49_ipr_basis (n : ℕ) (hn : n < d) : iprKetNB (basis d n) = 1 := by
  have : ∑ i : Fin d, ‖basis d n i 0‖ ^ 4 = 1 := by
    rw [Finset.sum_eq_single ⟨n, hn⟩]
    · simp [basis]
    · intro j _ hj
      have : ¬ (j : ℕ) = n := fun h => hj (Fin.ext h)
      simp [basis, this]
    · simp
  rw [iprKetNB, this]; norm_num

theorem C49_ipr_one_iff (k : Ket d) (hk : IsUnit k) : iprKetNB k = 1 ↔ ∃ i, ∀ j, j ≠ i → k j 0 = 0 := by
  have hsum : ∑ i, ‖k i 0‖ ^ 4 = 1 ↔ iprKetNB k = 1 := by
    rw [iprKetNB]
    constructor
    · intro h; rw [h]; norm_num
    · intro h
      have : ∑ i, ‖k i 0‖ ^ 4 ≠ 0 := by intro h0; rw [h0] at h; norm_num at h
      field_simp at h; exact h.symm
  rw [← hsum]
  constructor
  · intro h
    have hz : ∑ i, (‖k i 0‖ ^ 2 - ‖k i 0‖ ^ 4) = 0 := by
      rw [Finset.sum_sub_distrib, h, hk]; ring
    have hle : ∀ i, ‖k i 0‖ ^ 2 ≤ 1 := by
      intro i; rw [← hk]
      exact Finset.single_le_sum (f := fun i => ‖k i 0‖ ^ 2) (fun j _ => by positivity) (Finset.mem_univ i)
    have hterm := (Finset.sum_eq_zero_iff_of_nonneg (fun i _ => by
      have := hle i
      nlinarith [sq_nonneg (‖k i 0‖), sq_nonneg (‖k i 0‖ ^ 2)])).mp hz
    have h01 : ∀ i, ‖k i 0‖ ^ 2 = 0 ∨ ‖k i 0‖ ^ 2 = 1 := by
      intro i
      have := hterm i (Finset.mem_univ i)
      have e : ‖k i 0‖ ^ 2 * (1 - ‖k i 0‖ ^ 2) = 0 := by linear_combination this
      rcases mul_eq_zero.mp e with h | h
      · left; exact h
      · right; linarith
    have hex : ∃ i, ‖k i 0‖ ^ 2 = 1 := by
      by_contra hcon
      push Not at hcon
      have : ∑ i, ‖k i 0‖ ^ 2 = 0 := Finset.sum_eq_zero fun i _ => (h01 i).resolve_right (hcon i)
      rw [hk] at this; norm_num at this
    obtain ⟨i, hi⟩ := hex
    refine ⟨i, fun j hj => ?_⟩
    have h2 : ‖k i 0‖ ^ 2 + ‖k j 0‖ ^ 2 ≤ 1 := by
      rw [← hk, ← Finset.sum_pair (f := fun i => ‖k i 0‖ ^ 2) (Ne.symm hj)]
      exact Finset.sum_le_sum_of_subset_of_nonneg (Finset.subset_univ _) fun _ _ _ => by positivity
    have h3 : ‖k j 0‖ ^ 2 = 0 := le_antisymm (by linarith) (by positivity)
    simpa using h3
  · rintro ⟨i, hi⟩
    have e : ∀ m : ℕ, 0 < m → ∑ j, ‖k j 0‖ ^ m = ‖k i 0‖ ^ m := by
      intro m hm
      rw [Finset.sum_eq_single i]
      · intro j _ hj; rw [hi j hj]; simp; omega
      · simp
    rw [e 4 (by norm_num)]
    have := e 2 (by norm_num)
    rw [hk] at this
    calc ‖k i 0‖ ^ 4 = (‖k i 0‖ ^ 2) ^ 2 := by ring
      _ = 1 := by rw [← this]; norm_num

theorem C49_ipr_uniform (k : Ket d) (hd : 0 < d) (h : ∀ i, ‖k i 0‖ ^ 2 = 1 / d) : iprKetNB k = d := by
  have : ∀ i, ‖k i 0‖ ^ 4 = (1 / d) ^ 2 := by intro i; rw [← h i]; ring
  have hd' : (d : ℝ) ≠ 0 := by exact_mod_cast hd.ne'
  simp only [iprKetNB, this, Finset.sum_const, Finset.card_univ, Fintype.card_fin, nsmul_eq_mul]
  field_simp

theorem innerProd_basis (k : Ket d) (n : ℕ) (hn : n < d) : innerProd (basis d n) (some k) = (starRingEnd ℂ) (k ⟨n, hn⟩ 0) := by
  rw [innerProd_eq, Finset.sum_eq_single ⟨n, hn⟩]
  · simp [basis]
  · intro j _ hj
    have : ¬ (j : ℕ) = n := fun h => hj (Fin.ext h)
    simp [basis, this]
  · simp

/-- **C49.** `iprKet` in the standard basis is `iprKetNB`. -/
theorem C49_ipr_standard_basis (hd : d ≠ 1) (k : Ket d) : iprKet (completeBasis d) k = iprKetNB k := by
  rw [iprKet, iprKetNB, completeBasis, List.map_map]
  congr 1
  have : ∀ n, (h : n < d) → ((fun b => fidelityPure (.ket b) (.ket k) ^ 2) ∘ fun n => basis d n) n = ‖k ⟨n, h⟩ 0‖ ^ 4 := by
    intro n hn
    simp only [Function.comp, fidelityPure, ne_eq, hd, not_false_eq_true, if_true]
    rw [innerProd_basis k n hn, RCLike.norm_conj, ← pow_mul]
  rw [← List.map_congr_left (f := fun n => if h : n < d then ‖k ⟨n, h⟩ 0‖ ^ 4 else 0)]
  · rw [← List.sum_toFinset _ List.nodup_range, List.toFinset_range, Finset.sum_range]
    apply Finset.sum_congr rfl
    intro i _; rw [dif_pos i.2]
  · intro n hn
    have hn' := List.mem_range.mp hn
    rw [this n hn', dif_pos hn']

/-- Parseval's identity; it holds for every orthonormal basis (see `C49_ipr_orthonormal`). -/
def Parseval (bas : List (Ket d)) : Prop :=
  ∀ k : Ket d, (bas.map fun b => ‖innerProd b (some k)‖ ^ 2).sum = ∑ i, ‖k i 0‖ ^ 2

/-- **C49 (IPR, any basis).** For any list of `n` kets satisfying Parseval's identity the IPR of a unit ket is between 1 and `n`. -/
theorem C49_ipr_any_basis (hd : d ≠ 1) (bas : List (Ket d)) (hb : Parseval bas) (k : Ket d) (hk : IsUnit k) :
    1 ≤ iprKet bas k ∧ iprKet bas k ≤ bas.length := by
  have hs := hb k
  rw [hk] at hs
  have := ipr_bounds (fun i : Fin bas.length => ‖innerProd bas[i] (some k)‖ ^ 2) (fun i => by positivity) (by
    rw [← hs, ← List.sum_ofFn]
    congr 1
    exact List.ofFn_getElem_eq_map bas (fun b => ‖innerProd b (some k)‖ ^ 2))
  rw [iprKet]
  have e : (bas.map fun b => fidelityPure (.ket b) (.ket k) ^ 2).sum =
      ∑ i : Fin bas.length, (‖innerProd bas[i] (some k)‖ ^ 2) ^ 2 := by
    rw [← List.sum_ofFn]
    congr 1
    refine Eq.trans ?_ (List.ofFn_getElem_eq_map bas (fun b => (‖innerProd b (some k)‖ ^ 2) ^ 2)).symm
    apply List.map_congr_left
    intro b _
    simp [fidelityPure, hd]
  rw [e]; exact this

/-- **C49 (purity).** For a density matrix `1/d <= purity <= 1`. -/
theorem C49_purity_bounds (rho : Op d) (h : IsDensity rho) :
    ∃ r : ℝ, purity rho = r ∧ 1 / (d : ℝ) ≤ r ∧ r ≤ 1 := by
  obtain ⟨r, hr, h0, h1⟩ := trace_mul_bounds h.pos h.pos
  refine ⟨r, hr, ?_, by rw [h.tr] at h1; simpa using h1⟩
  have hfro : r = frobSq rho := by
    have := trace_conjTranspose_mul rho
    rw [h.pos.isHermitian.eq, hr] at this
    exact_mod_cast this
  have htr : ∑ i, (rho i i).re = 1 := by
    have := congrArg Complex.re h.tr
    simpa [Matrix.trace] using this
  have hcs := @sq_sum_le_card_mul_sum_sq _ ℝ _ _ _ _ (Finset.univ : Finset (Fin d)) (fun i => (rho i i).re)
  rw [htr] at hcs
  have hle : ∑ i, (rho i i).re ^ 2 ≤ frobSq rho := by
    apply Finset.sum_le_sum
    intro i _
    calc (rho i i).re ^ 2 ≤ ‖rho i i‖ ^ 2 := by
          rw [← Complex.normSq_eq_norm_sq, Complex.normSq_apply]; nlinarith [sq_nonneg (rho i i).im]
      _ ≤ _ := Finset.single_le_sum (f := fun j => ‖rho i j‖ ^ 2) (fun j _ => by positivity) (Finset.mem_univ i)
  have hd : 0 < (d : ℝ) := by
    rcases Nat.eq_zero_or_pos d with rfl | hd
    · simp at htr
    · exact_mod_cast hd
  rw [div_le_iff₀ hd, hfro]
  simp at hcs
  nlinarith

/-- **C49 (purity, extreme values).** -/
theorem C49_purity_pure (k : Ket d) (hk : IsUnit k) : purity (outerProd k) = 1 := by
  rw [purity, ← overlap_eq_trace]
  have : innerProd k (some k) = 1 := by
    have := innerProd_self k
    rw [hk] at this
    simpa [innerProd] using this
  rw [this]; simp

theorem C49_purity_mixed (hd : 0 < d) : purity ((1 / (d : ℂ)) • (1 : Op d)) = 1 / (d : ℂ) := by
  have : (d : ℂ) ≠ 0 := by exact_mod_cast hd.ne'
  simp [purity, Matrix.trace_smul, Matrix.trace_one]
  field_simp

theorem clog_mul_re (x : ℝ) (hx : 0 ≤ x) : ((x : ℂ) * Complex.log x).re = x * Real.log x := by
  rw [← Complex.ofReal_log hx, ← Complex.ofReal_mul, Complex.ofReal_re]

/-- The entropy in terms of the eigenvalues. -/
theorem entropy_eq (s : QState d) (h : IsDensity s.asMat) :
    entropy s = ∑ i, Real.negMulLog (h.pos.isHermitian.eigenvalues i) := by
  simp only [entropy, Bool.false_eq_true, if_false]
  rw [h.pos.isHermitian.roots_charpoly_eq_eigenvalues]
  have hz : ∀ m : Multiset ℂ, ((m.filter (· ≠ 0)).map fun v => v * Complex.log v).sum =
      (m.map fun v => v * Complex.log v).sum := by
    intro m
    induction m using Multiset.induction_on with
    | empty => rfl
    | cons a m ih =>
      by_cases ha : a = 0
      · rw [Multiset.filter_cons_of_neg (p := fun v : ℂ => v ≠ 0) m (by simpa using ha), ih]; simp [ha]
      · rw [Multiset.filter_cons_of_pos (p := fun v : ℂ => v ≠ 0) m ha]; simp [ih]
  rw [hz, Multiset.map_map]
  change (-(∑ i, ((h.pos.isHermitian.eigenvalues i : ℝ) : ℂ) * Complex.log (h.pos.isHermitian.eigenvalues i : ℝ))).re = _
  rw [Complex.neg_re, Complex.re_sum, ← Finset.sum_neg_distrib]
  apply Finset.sum_congr rfl
  intro i _
  rw [clog_mul_re _ (h.pos.eigenvalues_nonneg i), Real.negMulLog]; ring

theorem eigenvalues_sum (rho : Op d) (h : IsDensity rho) : ∑ i, h.pos.isHermitian.eigenvalues i = 1 := by
  have := h.pos.isHermitian.trace_eq_sum_eigenvalues
  rw [h.tr] at this
  have h2 : ((∑ i, h.pos.isHermitian.eigenvalues i : ℝ) : ℂ) = ((1 : ℝ) : ℂ) := by
    push_cast; exact this.symm
  exact Complex.ofReal_injective h2

/-- **C49 (entropy).** For every state `0 <= entropy <= log d`. -/
theorem C49_entropy_bounds (s : QState d) (h : IsDensity s.asMat) : 0 ≤ entropy s ∧ entropy s ≤ Real.log d := by
  have h1 := eigenvalues_sum _ h
  have h0 := h.pos.eigenvalues_nonneg
  rw [entropy_eq s h]
  constructor
  · apply Finset.sum_nonneg
    intro i _
    apply Real.negMulLog_nonneg (h0 i)
    rw [← h1]; exact Finset.single_le_sum (fun j _ => h0 j) (Finset.mem_univ i)
  · have hd : 0 < d := by
      rcases Nat.eq_zero_or_pos d with rfl | hd
      · simp at h1
      · exact hd
    have hd' : (d : ℝ) ≠ 0 := by exact_mod_cast hd.ne'
    have := Real.concaveOn_negMulLog.le_map_sum (t := (Finset.univ : Finset (Fin d))) (w := fun _ => (1 : ℝ) / d)
      (p := fun i => h.pos.isHermitian.eigenvalues i) (fun _ _ => by positivity)
      (by simp [hd']) (fun i _ => h0 i)
    simp only [smul_eq_mul, ← Finset.mul_sum, h1, mul_one] at this
    rw [Real.negMulLog, one_div, Real.log_inv] at this
    have h2 : (d : ℝ) * ((d : ℝ)⁻¹ * ∑ i, Real.negMulLog (h.pos.isHermitian.eigenvalues i)) ≤
        (d : ℝ) * (-(d : ℝ)⁻¹ * -Real.log d) := by gcongr
    field_simp at h2
    linarith

/-- **C49 (entropy, extreme values).** A pure state has entropy zero, the maximally mixed one `log d`. -/
theorem C49_entropy_mixed (hd : 0 < d) : entropy (.mat ((1 / (d : ℂ)) • (1 : Op d))) = Real.log d := by
  have hd' : (d : ℂ) ≠ 0 := by exact_mod_cast hd.ne'
  have hch : ((1 / (d : ℂ)) • (1 : Op d)) = Matrix.diagonal fun _ => (1 / (d : ℂ)) := by
    ext i j; by_cases h : i = j <;> simp [h]
  simp only [entropy, QState.asMat, Bool.false_eq_true, if_false]
  rw [hch, Matrix.charpoly_diagonal]
  simp only [Finset.prod_const, Finset.card_univ, Fintype.card_fin]
  rw [Polynomial.roots_pow, Polynomial.roots_X_sub_C, Multiset.filter_eq_self.mpr]
  · rw [Multiset.map_nsmul, Multiset.sum_nsmul]
    simp only [Multiset.map_singleton, Multiset.sum_singleton, nsmul_eq_mul]
    have : (d : ℂ) * (1 / d * Complex.log (1 / d)) = ((Real.log (1 / d) : ℝ) : ℂ) := by
      rw [Complex.ofReal_log (by positivity)]
      push_cast
      field_simp
    rw [this, one_div, Real.log_inv]
    rw [← Complex.ofReal_neg, Complex.ofReal_re, neg_neg]
  · intro a ha
    have := Multiset.mem_of_mem_nsmul ha
    rw [Multiset.mem_singleton] at this
    rw [this]; exact one_div_ne_zero hd'

theorem C49_entropy_pure (k : Ket d) (hk : IsUnit k) (hd : d ≠ 1) : entropy (.ket k) = 0 := by
  have h : IsDensity (QState.ket k).asMat := by
    simp only [QState.asMat, ne_eq, hd, not_false_eq_true, if_true]
    exact outerProd_density k hk
  rw [entropy_eq _ h]
  have h1 := eigenvalues_sum _ h
  have h0 := h.pos.eigenvalues_nonneg
  -- idempotent, so every eigenvalue is 0 or 1
  have hid : (QState.ket k).asMat * (QState.ket k).asMat = (QState.ket k).asMat := by
    simp only [QState.asMat, ne_eq, hd, not_false_eq_true, if_true]
    ext i j
    rw [Matrix.mul_apply]
    simp only [outerProd_self_apply]
    have e : ∑ x, (starRingEnd ℂ) (k x 0) * k x 0 = 1 := by
      have := innerProd_self k
      rw [hk] at this
      have h2 := innerProd_eq k k
      rw [← h2]
      simpa [innerProd] using this
    calc ∑ x, k i 0 * (starRingEnd ℂ) (k x 0) * (k x 0 * (starRingEnd ℂ) (k j 0))
        = k i 0 * (starRingEnd ℂ) (k j 0) * ∑ x, (starRingEnd ℂ) (k x 0) * k x 0 := by
          rw [Finset.mul_sum]; apply Finset.sum_congr rfl; intro x _; ring
      _ = _ := by rw [e, mul_one]
  apply Finset.sum_eq_zero
  intro i _
  have hev := h.pos.isHermitian.mulVec_eigenvectorBasis i
  set lam := h.pos.isHermitian.eigenvalues i
  have hev2 : (QState.ket k).asMat *ᵥ ((QState.ket k).asMat *ᵥ ⇑(h.pos.isHermitian.eigenvectorBasis i)) =
      (QState.ket k).asMat *ᵥ ⇑(h.pos.isHermitian.eigenvectorBasis i) := by
    rw [Matrix.mulVec_mulVec, hid]
  rw [hev, Matrix.mulVec_smul, hev, smul_smul] at hev2
  have hne : (⇑(h.pos.isHermitian.eigenvectorBasis i) : Fin d → ℂ) ≠ 0 := by
    have := h.pos.isHermitian.eigenvectorBasis.orthonormal.ne_zero i
    intro h0; apply this; ext j; exact congrFun h0 j
  have hl : lam * lam = lam := by
    obtain ⟨j, hj⟩ := Function.ne_iff.mp hne
    have := congrFun hev2 j
    simp only [Pi.smul_apply] at this
    rw [Complex.real_smul, Complex.real_smul] at this
    have := mul_right_cancel₀ hj this
    exact_mod_cast this
  have : lam = 0 ∨ lam = 1 := by
    have e : lam * (lam - 1) = 0 := by linear_combination hl
    rcases mul_eq_zero.mp e with h | h
    · left; exact h
    · right; linarith
  rcases this with h | h <;> rw [h] <;> simp

/-- **C49 (entropy, base 2).** With `base2=True` the entropy is the natural one divided by `log 2`. -/
theorem C49_entropy_base2 (s : QState d) : entropy s true = entropy s / Real.log 2 := by
  simp only [entropy, if_true, Bool.false_eq_true, if_false]
  have : ∀ m : Multiset ℂ, (m.map fun v => v * (Complex.log v / Complex.log 2)).sum =
      (m.map fun v => v * Complex.log v).sum / Complex.log 2 := by
    intro m
    induction m using Multiset.induction_on with
    | empty => simp
    | cons a m ih => simp only [Multiset.map_cons, Multiset.sum_cons, ih]; ring
  rw [this, ← neg_div]
  have h2 : Complex.log 2 = ((Real.log 2 : ℝ) : ℂ) := by
    rw [Complex.ofReal_log (by norm_num)]; norm_num
  rw [h2, Complex.div_ofReal_re]

/-- **C49 (purity one).** A density matrix with purity one is pure: it squares to itself. -/
theorem C49_purity_one (rho : Op d) (h : IsDensity rho) (hp : purity rho = 1) : rho * rho = rho := by
  set lam := h.pos.isHermitian.eigenvalues with hlam
  have h1 := eigenvalues_sum _ h
  have h0 := h.pos.eigenvalues_nonneg
  have hle : ∀ i, lam i ≤ 1 := by
    intro i; rw [← h1]; exact Finset.single_le_sum (fun j _ => h0 j) (Finset.mem_univ i)
  -- spectral decomposition
  have hspec := h.pos.isHermitian.spectral_theorem
  set U : unitary (Op d) := h.pos.isHermitian.eigenvectorUnitary
  have hU : (star U : Op d) * (U : Op d) = 1 := Unitary.coe_star_mul_self U
  have hU' : (U : Op d) * (star U : Op d) = 1 := Unitary.coe_mul_star_self U
  have e : rho = (U : Op d) * Matrix.diagonal (fun i => ((lam i : ℝ) : ℂ)) * (star U : Op d) := by
    rw [hspec]; rfl
  have hsq : rho * rho = (U : Op d) * Matrix.diagonal (fun i => ((lam i ^ 2 : ℝ) : ℂ)) * (star U : Op d) := by
    have hd2 : Matrix.diagonal (fun i => ((lam i ^ 2 : ℝ) : ℂ)) =
        Matrix.diagonal (fun i => ((lam i : ℝ) : ℂ)) * Matrix.diagonal (fun i => ((lam i : ℝ) : ℂ)) := by
      rw [Matrix.diagonal_mul_diagonal]; congr 1; funext i; push_cast; ring
    rw [hd2]
    calc rho * rho = ((U : Op d) * Matrix.diagonal (fun i => ((lam i : ℝ) : ℂ)) * (star U : Op d)) *
          ((U : Op d) * Matrix.diagonal (fun i => ((lam i : ℝ) : ℂ)) * (star U : Op d)) := by rw [← e]
      _ = (U : Op d) * Matrix.diagonal (fun i => ((lam i : ℝ) : ℂ)) * ((star U : Op d) * (U : Op d)) *
          (Matrix.diagonal (fun i => ((lam i : ℝ) : ℂ)) * (star U : Op d)) := by simp only [Matrix.mul_assoc]
      _ = _ := by rw [hU, Matrix.mul_one]; simp only [Matrix.mul_assoc]
  have htr : ∑ i, lam i ^ 2 = 1 := by
    have : (rho * rho).trace = 1 := hp
    rw [hsq, Matrix.trace_mul_comm, ← Matrix.mul_assoc, hU, Matrix.one_mul, Matrix.trace_diagonal] at this
    exact_mod_cast this
  have hz : ∑ i, (lam i - lam i ^ 2) = 0 := by rw [Finset.sum_sub_distrib, htr, h1]; ring
  have hterm := (Finset.sum_eq_zero_iff_of_nonneg (fun i _ => by nlinarith [h0 i, hle i])).mp hz
  have hl : ∀ i, lam i ^ 2 = lam i := fun i => by linarith [hterm i (Finset.mem_univ i)]
  rw [hsq]
  simp only [hl]
  exact e.symm

/-- **C46 (variance).** The quantity under the square root of `standardDev` is real and not negative for Hermitian operators and
proper states. -/
theorem C46_variance_nonneg (op : Op d) (s : QState d) (hop : hc op = op) (hs : IsDensity s.asMat) :
    ∃ r : ℝ, variance op s = r ∧ 0 ≤ r := by
  have hs' : hc s.asMat = s.asMat := by rw [hc_eq]; exact hs.pos.isHermitian.eq
  have hop' : opᴴ = op := by rw [← hc_eq]; exact hop
  have hop2 : hc (op * op) = op * op := by rw [hc_eq, conjTranspose_mul, hop']
  obtain ⟨e1, i1⟩ := C46_expectation_real op s hop hs'
  obtain ⟨e2, i2⟩ := C46_expectation_real (op * op) s hop2 hs'
  set m := (expectation op s).re with hm
  have em : expectation op s = (m : ℂ) := Complex.ext rfl (by rw [i1, Complex.ofReal_im])
  obtain ⟨B, hB⟩ := posSemidef_factor hs.pos
  -- the variance is the expectation of `(op - m)^2`
  have key : variance op s = ((op - (m : ℂ) • 1) * (op - (m : ℂ) • 1) * s.asMat).trace := by
    have e1' : (op * s.asMat).trace = (m : ℂ) := by rw [← em, e1]; rfl
    rw [variance, em, e2, expectationRaw]
    simp only [Matrix.sub_mul, Matrix.mul_sub, Matrix.smul_mul, Matrix.mul_smul, Matrix.one_mul, Matrix.mul_one,
      Matrix.trace_sub, Matrix.trace_smul, hs.tr, e1', smul_eq_mul]
    ring
  refine ⟨frobSq (B * (op - (m : ℂ) • 1)), ?_, frobSq_nonneg _⟩
  rw [key, ← trace_conjTranspose_mul, conjTranspose_mul, hB]
  have hh : (op - (m : ℂ) • (1 : Op d))ᴴ = op - (m : ℂ) • 1 := by
    simp [conjTranspose_sub, conjTranspose_smul, hop']
  rw [hh, Matrix.mul_assoc, Matrix.trace_mul_comm]
  rw [Matrix.trace_mul_comm ((op - (m : ℂ) • 1) * Bᴴ)]
  rw [Matrix.trace_mul_comm _ ((op - (m : ℂ) • 1) * Bᴴ)]
  rw [Matrix.mul_assoc, Matrix.mul_assoc, Matrix.mul_assoc, Matrix.trace_mul_comm]

/-- **C46 (Bell states).** The four Bell states are orthonormal. -/
theorem C46_bell_orthonormal :
    ∀ a ∈ ["Phi+", "Phi-", "Psi+", "Psi-"], ∀ b ∈ ["Phi+", "Phi-", "Psi+", "Psi-"],
      ∃ ka kb, bellState a = some ka ∧ bellState b = some kb ∧ innerProd ka (some kb) = if a = b then 1 else 0 := by
  have hs : ((Real.sqrt 2 : ℝ) : ℂ) * ((Real.sqrt 2 : ℝ) : ℂ) = 2 := by
    rw [← Complex.ofReal_mul, Real.mul_self_sqrt (by norm_num)]; norm_num
  have h0 : ((Real.sqrt 2 : ℝ) : ℂ) ≠ 0 := by intro h; rw [h] at hs; norm_num at hs
  intro a ha b hb
  simp only [List.mem_cons, List.not_mem_nil, or_false] at ha hb
  rcases ha with rfl | rfl | rfl | rfl <;> rcases hb with rfl | rfl | rfl | rfl <;>
    refine ⟨_, _, rfl, rfl, ?_⟩ <;>
    simp [innerProd_eq, Fin.sum_univ_four] <;> field_simp <;> linear_combination (-1 : ℂ) * hs

/-! ## Concrete instances -/

/-- The ket `(3, 4i)/5`, its density matrix and the mixture `diag(1/4, 3/4)` meet the hypotheses above. -/
noncomputable def demoKet : Ket 2 := !![3 / 5; 4 / 5 * Complex.I]

theorem demoKet_unit : IsUnit demoKet := by
  simp [IsUnit, demoKet, Fin.sum_univ_two]; norm_num

example : IsDensity (outerProd demoKet) := outerProd_density _ demoKet_unit

theorem demoMix_density : IsDensity (!![1 / 4, 0; 0, 3 / 4] : Op 2) := by
  constructor
  · have : (!![1 / 4, 0; 0, 3 / 4] : Op 2) = Matrix.diagonal ![1 / 4, 3 / 4] := by
      ext i j; fin_cases i <;> fin_cases j <;> simp
    rw [this, Matrix.posSemidef_diagonal_iff]
    intro i; fin_cases i <;> simp <;> positivity
  · simp [Matrix.trace, Fin.sum_univ_two]; norm_num

example : fidelityPure (.ket demoKet) (.mat (!![1 / 4, 0; 0, 3 / 4] : Op 2)) = 57 / 100 := by
  rw [C46_fidelity_representation (by norm_num)]
  simp [QState.asMat, Matrix.trace, Fin.sum_univ_two, Matrix.mul_apply, outerProd_self_apply, demoKet, map_ofNat]
  norm_num

example : purity (!![1 / 4, 0; 0, 3 / 4] : Op 2) = 5 / 8 := by
  simp [purity, Matrix.trace, Fin.sum_univ_two]; norm_num

example : iprKetNB demoKet = 625 / 337 := by
  simp [iprKetNB, demoKet, Fin.sum_univ_two]; norm_num

example : Parseval (completeBasis 2) := by
  intro k
  have h0 := innerProd_basis k 0 (by norm_num)
  have h1 := innerProd_basis k 1 (by norm_num)
  simp [completeBasis, List.range_succ, h0, h1, Fin.sum_univ_two]

example : expectation (sigmaz : Op 2) (.ket demoKet) = -7 / 25 := by
  have : expectationRaw (sigmaz : Op 2) (.ket demoKet) = -7 / 25 := by
    simp only [expectationRaw, QState.asMat, Matrix.trace, Fin.sum_univ_two, Matrix.mul_apply, outerProd_self_apply,
      Matrix.diag_apply, ne_eq, OfNat.ofNat_ne_one, not_false_eq_true, if_true]
    simp [demoKet, sigmaz, map_ofNat]
    ring_nf
    simp
    norm_num
  rw [(C46_expectation_real sigmaz (.ket demoKet) (by
    ext i j; fin_cases i <;> fin_cases j <;> simp [hc, sigmaz]) (asMat_ket_herm (by norm_num) _)).1, this]

end Verif.Toolbox
