import Verif.Toolbox.OperatorLemmas
import Mathlib.Tactic.Module
import Mathlib.Tactic.NoncommRing
import Mathlib.Tactic.LinearCombination

/-!
# C42: spin operators satisfy the angular momentum algebra for every spin

The allowed arguments are a half-integer spin `j` (`isDim=False`) or a dimension `d >= 1` (`isDim=True`).
-/
namespace Verif.Toolbox
open Matrix

/-- The documented inputs: `isDim=False` with a non-negative half-integer spin, or `isDim=True` with a dimension. -/
def ValidSpin (j : ℚ) (isDim : Bool) : Prop :=
  (isDim = false ∧ ∃ n : ℕ, j = n / 2) ∨ (isDim = true ∧ ∃ n : ℕ, 0 < n ∧ j = n)

/-- The spin quantum number an input describes. -/
def spinOf (j : ℚ) (isDim : Bool) : ℚ := if isDim then (j - 1) / 2 else j

theorem spinArgs_valid {j : ℚ} {isDim : Bool} (h : ValidSpin j isDim) :
    ∃ n : ℕ, spinArgs j isDim = (n + 1, (n : ℚ) / 2) ∧ spinOf j isDim = (n : ℚ) / 2 := by
  rcases h with ⟨rfl, n, rfl⟩ | ⟨rfl, n, hn, rfl⟩
  · refine ⟨n, ?_, by simp [spinOf]⟩
    have : (2 : ℚ) * (n / 2) + 1 = ((n + 1 : ℕ) : ℚ) := by push_cast; ring
    have h2 : ⌊((n + 1 : ℕ) : ℚ)⌋₊ = n + 1 := Nat.floor_natCast _
    simp only [spinArgs, this, h2]; rfl
  · obtain ⟨m, rfl⟩ : ∃ m, n = m + 1 := ⟨n - 1, by omega⟩
    refine ⟨m, ?_, by simp [spinOf]⟩
    have h2 : ⌊((m + 1 : ℕ) : ℚ)⌋₊ = m + 1 := Nat.floor_natCast _
    simp only [spinArgs, h2, if_true]; push_cast; simp

/-- Ladder data for dimension `n+1`. -/
noncomputable def lad (n i : ℕ) : ℂ := ladderData ((n : ℚ) / 2) i

theorem lad_sq (n i : ℕ) (h : i ≤ n) : lad n i * lad n i = ((n : ℂ) - i) * (i + 1) := by
  have h0 : (i : ℝ) ≤ n := by exact_mod_cast h
  have h1 : ((((n : ℚ) / 2 : ℚ) : ℝ) + ((((n : ℚ) / 2 : ℚ) : ℝ) - i)) *
      ((((n : ℚ) / 2 : ℚ) : ℝ) - ((((n : ℚ) / 2 : ℚ) : ℝ) - i) + 1) = ((n : ℝ) - i) * (i + 1) := by
    push_cast; ring
  unfold lad ladderData
  simp only [h1]
  rw [sqrt_mul_self_ofReal]
  · push_cast; ring
  · apply mul_nonneg <;> [linarith; positivity]

theorem lad_conj (n i : ℕ) : (starRingEnd ℂ) (lad n i) = lad n i := by
  simp [lad, ladderData]

section concrete
variable (n : ℕ)

/-- The matrices for dimension `n+1`. -/
private noncomputable def P : Op (n + 1) := sup (n + 1) (lad n)
private noncomputable def M : Op (n + 1) := sub (n + 1) (lad n)
private noncomputable def Z : Op (n + 1) := diag (n + 1) fun i => (n : ℂ) / 2 - i

theorem diag_congr {d : ℕ} {f g : ℕ → ℂ} (h : ∀ i < d, f i = g i) : diag d f = diag d g := by
  ext i j
  simp only [diag, Matrix.of_apply]
  rw [h i i.2]

theorem sup_congr {d : ℕ} {f g : ℕ → ℂ} (h : ∀ i, i + 1 < d → f i = g i) : sup d f = sup d g := by
  ext i j
  simp only [sup, Matrix.of_apply]
  split_ifs with h'
  · exact h i (h' ▸ j.2)
  · rfl

theorem sub_congr {d : ℕ} {f g : ℕ → ℂ} (h : ∀ i, i + 1 < d → f i = g i) : sub d f = sub d g := by
  ext i j
  simp only [sub, Matrix.of_apply]
  split_ifs with h'
  · exact h j (h' ▸ i.2)
  · rfl

theorem diag_sub_diag (d : ℕ) (f g : ℕ → ℂ) : diag d f - diag d g = diag d fun i => f i - g i := by
  ext i j; simp only [diag, Matrix.sub_apply, Matrix.of_apply]; split_ifs <;> simp
theorem diag_add_diag (d : ℕ) (f g : ℕ → ℂ) : diag d f + diag d g = diag d fun i => f i + g i := by
  ext i j; simp only [diag, Matrix.add_apply, Matrix.of_apply]; split_ifs <;> simp
theorem smul_diag (d : ℕ) (c : ℂ) (f : ℕ → ℂ) : c • diag d f = diag d fun i => c * f i := by
  ext i j; simp only [diag, Matrix.smul_apply, Matrix.of_apply, smul_eq_mul]; split_ifs <;> simp
theorem sup_sub_sup (d : ℕ) (f g : ℕ → ℂ) : sup d f - sup d g = sup d fun i => f i - g i := by
  ext i j; simp only [sup, Matrix.sub_apply, Matrix.of_apply]; split_ifs <;> simp
theorem sub_sub_sub (d : ℕ) (f g : ℕ → ℂ) : sub d f - sub d g = sub d fun i => f i - g i := by
  ext i j; simp only [sub, Matrix.sub_apply, Matrix.of_apply]; split_ifs <;> simp

private theorem PM : P n * M n = diag (n + 1) fun i => ((n : ℂ) - i) * (i + 1) := by
  rw [P, M, sup_mul_sub]
  apply diag_congr
  intro i hi
  split_ifs with h
  · exact lad_sq n i (by omega)
  · have : i = n := by omega
    subst this; simp

private theorem MP : M n * P n = diag (n + 1) fun i => ((n : ℂ) - i + 1) * i := by
  rw [P, M, sub_mul_sup]
  apply diag_congr
  intro i hi
  split_ifs with h
  · subst h; simp
  · rw [lad_sq n (i - 1) (by omega)]
    obtain ⟨k, rfl⟩ : ∃ k, i = k + 1 := ⟨i - 1, by omega⟩
    simp only [Nat.add_sub_cancel]; push_cast; ring

private theorem commPM : P n * M n - M n * P n = (2 : ℂ) • Z n := by
  rw [PM, MP, Z, diag_sub_diag, smul_diag]
  congr 1; funext i; ring

private theorem commZP : Z n * P n - P n * Z n = P n := by
  rw [Z, P, diag_mul_sup, sup_mul_diag, sup_sub_sup]
  congr 1; funext i; push_cast; ring

private theorem commZM : Z n * M n - M n * Z n = -M n := by
  have : -M n = sub (n + 1) fun i => - lad n i := by
    ext i j; simp only [M, sub, Matrix.neg_apply, Matrix.of_apply]; split_ifs <;> simp
  rw [this, Z, M, diag_mul_sub, sub_mul_diag, sub_sub_sub]
  congr 1; funext i; push_cast; ring

private theorem casimir : (1 / 2 : ℂ) • (P n * M n + M n * P n) + Z n * Z n =
    (((n : ℂ) / 2) * ((n : ℂ) / 2 + 1)) • (1 : Op (n + 1)) := by
  rw [PM, MP, Z, diag_mul_diag, diag_add_diag, smul_diag, diag_add_diag, ← diag_one, smul_diag]
  congr 1; funext i; ring

private theorem hcP : hc (P n) = M n := by
  rw [P, hc_sup, M]; congr 1; funext i; exact lad_conj n i
private theorem hcM : hc (M n) = P n := by
  rw [M, hc_sub, P]; congr 1; funext i; exact lad_conj n i
private theorem hcZ : hc (Z n) = Z n := by
  rw [Z, hc_diag]; congr 1; funext i
  simp [map_div₀, map_ofNat]

end concrete

/-- All the claims about one triple of matrices `(Jx, Jy, Jz)` and ladder operators for spin `j`. -/
structure SpinAlgebra {d : ℕ} (j : ℂ) (X Y Z P M S : Op d) : Prop where
  comm_xy : X * Y - Y * X = Complex.I • Z
  comm_yz : Y * Z - Z * Y = Complex.I • X
  comm_zx : Z * X - X * Z = Complex.I • Y
  comm_zp : Z * P - P * Z = P
  comm_zm : Z * M - M * Z = -M
  comm_pm : P * M - M * P = (2 : ℂ) • Z
  casimir : X * X + Y * Y + Z * Z = (j * (j + 1)) • (1 : Op d)
  js      : S = (j * (j + 1)) • (1 : Op d)
  adjoint : M = Pᴴ
  herm_x  : Xᴴ = X
  herm_y  : Yᴴ = Y
  herm_z  : Zᴴ = Z
  raise   : P = X + Complex.I • Y
  lower   : M = X - Complex.I • Y

theorem spinAlgebra_of_ladder {d : ℕ} (j : ℂ) (P M Z : Op d) (hpm : P * M - M * P = (2 : ℂ) • Z)
    (hzp : Z * P - P * Z = P) (hzm : Z * M - M * Z = -M)
    (hcas : (1 / 2 : ℂ) • (P * M + M * P) + Z * Z = (j * (j + 1)) • (1 : Op d)) (hP : hc P = M) (hZ : hc Z = Z) :
    SpinAlgebra j ((0.5 : ℂ) • (P + M)) ((1 / (2 * Complex.I) : ℂ) • (P - M)) Z P M
      ((0.5 : ℂ) • (P + M) * ((0.5 : ℂ) • (P + M)) +
        (1 / (2 * Complex.I) : ℂ) • (P - M) * ((1 / (2 * Complex.I) : ℂ) • (P - M)) + Z * Z) := by
  have h5 : (0.5 : ℂ) = 1 / 2 := by norm_num
  have hI : (1 / (2 * Complex.I) : ℂ) = -(Complex.I / 2) := by
    field_simp; rw [Complex.I_sq]; ring
  have hI2 : Complex.I * Complex.I = -1 := Complex.I_mul_I
  have hMP : Mᴴ = P := by rw [← hP, hc_eq, conjTranspose_conjTranspose]
  have hPM : Pᴴ = M := by rw [← hc_eq]; exact hP
  have hcas' : (0.5 : ℂ) • (P + M) * ((0.5 : ℂ) • (P + M)) +
        (1 / (2 * Complex.I) : ℂ) • (P - M) * ((1 / (2 * Complex.I) : ℂ) • (P - M)) + Z * Z =
        (j * (j + 1)) • (1 : Op d) := by
    rw [← hcas, h5, hI]
    congr 1
    simp only [smul_mul_smul_comm]
    have : -(Complex.I / 2) * -(Complex.I / 2) = -(1 / 4) := by
      linear_combination (1 / 4 : ℂ) * hI2
    rw [this]
    simp only [mul_add, add_mul, mul_sub, sub_mul]
    module
  refine ⟨?_, ?_, ?_, hzp, hzm, hpm, hcas', hcas', hPM.symm, ?_, ?_, ?_, ?_, ?_⟩
  · rw [h5, hI]
    simp only [smul_mul_smul_comm]
    have e : (P + M) * (P - M) - (P - M) * (P + M) = (-2 : ℂ) • (P * M - M * P) := by
      simp only [mul_add, add_mul, mul_sub, sub_mul]; module
    have : (1 / 2 * -(Complex.I / 2)) • ((P + M) * (P - M)) - (-(Complex.I / 2) * (1 / 2)) • ((P - M) * (P + M)) =
        (-(Complex.I / 4)) • ((P + M) * (P - M) - (P - M) * (P + M)) := by module
    rw [this, e, hpm, smul_smul, smul_smul]
    congr 1; ring
  · rw [h5, hI]
    simp only [smul_mul_assoc, mul_smul_comm]
    have : -(Complex.I / 2) • ((P - M) * Z) - -(Complex.I / 2) • (Z * (P - M)) =
        (Complex.I / 2) • ((Z * P - P * Z) - (Z * M - M * Z)) := by
      simp only [mul_sub, sub_mul]; module
    rw [this, hzp, hzm]; module
  · rw [h5, hI]
    simp only [smul_mul_assoc, mul_smul_comm]
    have : (1 / 2 : ℂ) • (Z * (P + M)) - (1 / 2 : ℂ) • ((P + M) * Z) =
        (1 / 2 : ℂ) • ((Z * P - P * Z) + (Z * M - M * Z)) := by
      simp only [mul_add, add_mul]; module
    rw [this, hzp, hzm, smul_smul]
    have : Complex.I * -(Complex.I / 2) = 1 / 2 := by linear_combination (-1 / 2 : ℂ) * hI2
    rw [this]; module
  · rw [h5, conjTranspose_smul, conjTranspose_add, hPM, hMP, add_comm M P]; simp
  · rw [hI, conjTranspose_smul, conjTranspose_sub, hPM, hMP]
    have : star (-(Complex.I / 2)) = Complex.I / 2 := by
      simp [neg_div]
    rw [this]; module
  · rw [← hc_eq]; exact hZ
  · rw [h5, hI, smul_smul]
    have : Complex.I * -(Complex.I / 2) = 1 / 2 := by linear_combination (-1 / 2 : ℂ) * hI2
    rw [this]; module
  · rw [h5, hI, smul_smul]
    have : Complex.I * -(Complex.I / 2) = 1 / 2 := by linear_combination (-1 / 2 : ℂ) * hI2
    rw [this]; module

/-- **C42.** For every documented input the six matrices satisfy the angular momentum algebra of the spin described by the
input. -/
theorem C42_spin_algebra (j : ℚ) (isDim : Bool) (h : ValidSpin j isDim) :
    SpinAlgebra ((spinOf j isDim : ℚ) : ℂ) (Jx j isDim) (Jy j isDim) (Jz j isDim) (Jp j isDim) (Jm j isDim) (Js j isDim) := by
  obtain ⟨n, h1, h2⟩ := spinArgs_valid h
  rw [h2]
  unfold Jx Jy Js Jx Jy Jp Jm Jz
  rw [h1]
  have hP : cscMatrix (n + 1) (n + 1 - 1) (ladderData ((n : ℚ) / 2)) 0 1 = P n := by rw [cscMatrix_sup]; rfl
  have hM : cscMatrix (n + 1) (n + 1 - 1) (ladderData ((n : ℚ) / 2)) 1 0 = M n := by rw [cscMatrix_sub]; rfl
  have hZ : cscMatrix (n + 1) (n + 1) (fun i => (((n : ℚ) / 2 : ℚ) : ℂ) - (i : ℂ)) 0 0 = Z n := by
    rw [cscMatrix_diag]; simp [Z]
  simp only [hP, hM, hZ]
  have := spinAlgebra_of_ladder ((n : ℂ) / 2) (P n) (M n) (Z n) (commPM n) (commZP n) (commZM n) (casimir n) (hcP n) (hcZ n)
  push_cast
  exact this

/-- **C42 (dimension).** The matrices have dimension `2j + 1`. -/
theorem C42_dimension (j : ℚ) (isDim : Bool) (h : ValidSpin j isDim) :
    ((spinArgs j isDim).1 : ℚ) = 2 * spinOf j isDim + 1 := by
  obtain ⟨n, h1, h2⟩ := spinArgs_valid h
  rw [h1, h2]; push_cast; ring

/-- **C42 (eigenvalues).** `Jz` is diagonal with the magnetic quantum numbers `j, j-1, ..., -j`, the highest one first. -/
theorem C42_Jz_entries (j : ℚ) (isDim : Bool) (h : ValidSpin j isDim) (a b : Fin (spinArgs j isDim).1) :
    Jz j isDim a b = if a = b then ((spinOf j isDim : ℚ) : ℂ) - ((a : ℕ) : ℂ) else 0 := by
  obtain ⟨n, h1, h2⟩ := spinArgs_valid h
  have hj : (spinArgs j isDim).2 = spinOf j isDim := by rw [h1, h2]
  unfold Jz
  simp only [cscMatrix_diag, diag, Matrix.of_apply, hj, Fin.ext_iff]

theorem spinArgs_half : spinArgs (1 / 2) false = (2, 1 / 2) := by
  have : (⌊(2 : ℚ) * (1 / 2) + 1⌋₊ : ℕ) = 2 := by norm_num
  simp [spinArgs, this]; norm_num

/-- **C42 (spin one half).** For spin 1/2 the matrices are half the Pauli matrices, and `J+-` are `sigmap`/`sigmam`. -/
theorem C42_half :
    HEq (Jx (1 / 2)) ((1 / 2 : ℂ) • sigmax) ∧ HEq (Jy (1 / 2)) ((1 / 2 : ℂ) • sigmay) ∧
    HEq (Jz (1 / 2)) ((1 / 2 : ℂ) • sigmaz) ∧ HEq (Jp (1 / 2)) sigmap ∧ HEq (Jm (1 / 2)) sigmam := by
  have hl : ladderData (1 / 2) 0 = 1 := by
    norm_num [ladderData]
  have hl' : ladderData 2⁻¹ 0 = 1 := by rw [← hl]; norm_num
  have hP : cscMatrix 2 (2 - 1) (ladderData (1 / 2)) 0 1 = sigmap := by
    rw [cscMatrix_sup]
    ext i j; fin_cases i <;> fin_cases j <;> simp [sup, sigmap, hl']
  have hM : cscMatrix 2 (2 - 1) (ladderData (1 / 2)) 1 0 = sigmam := by
    rw [cscMatrix_sub]
    ext i j; fin_cases i <;> fin_cases j <;> simp [sub, sigmam, hl']
  have hZ : cscMatrix 2 2 (fun i => ((((1 : ℚ) / 2 : ℚ)) : ℂ) - (i : ℂ)) 0 0 = (1 / 2 : ℂ) • sigmaz := by
    rw [cscMatrix_diag]
    ext i j; fin_cases i <;> fin_cases j <;> norm_num [diag, sigmaz]
  unfold Jx Jy Jp Jm Jz
  rw [spinArgs_half]
  simp only [hP, hM, hZ]
  refine ⟨heq_of_eq ?_, heq_of_eq ?_, HEq.rfl, HEq.rfl, HEq.rfl⟩
  · ext i j; fin_cases i <;> fin_cases j <;> norm_num [sigmap, sigmam, sigmax]
  · have hI : (1 / (2 * Complex.I) : ℂ) = -(Complex.I / 2) := by
      field_simp; rw [Complex.I_sq]; ring
    rw [hI]
    ext i j; fin_cases i <;> fin_cases j <;> simp [sigmap, sigmam, sigmay] <;> ring

/-- Non-trivial instances: spin 3/2 and dimension 5 are documented inputs; for spin 3/2 the matrices are `4 x 4`. -/
example : ValidSpin (3 / 2) false ∧ ValidSpin 5 true ∧ spinOf (3 / 2) false = 3 / 2 ∧ spinOf 5 true = 2 := by
  refine ⟨Or.inl ⟨rfl, 3, by norm_num⟩, Or.inr ⟨rfl, 5, by norm_num, by norm_num⟩, by norm_num [spinOf], by norm_num [spinOf]⟩
example : (spinArgs (3 / 2) false).1 = 4 := by norm_num [spinArgs]

end Verif.Toolbox
