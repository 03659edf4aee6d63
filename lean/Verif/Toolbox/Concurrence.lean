import Verif.Toolbox.TraceDist
import Verif.Toolbox.Embed
import Mathlib.Analysis.Complex.Polynomial.Basic

/-!
# C60: `concurrence` and `sortedEigens`
-/
namespace Verif.Toolbox
open Matrix
open scoped ComplexOrder

/-! ## Model -/

/-- The order NumPy uses to sort complex numbers: real parts first, then imaginary parts. -/
def lexLe (a b : ℂ) : Prop := a.re < b.re ∨ a.re = b.re ∧ a.im ≤ b.im

instance : IsTrans ℂ lexLe := ⟨by
  rintro a b c (h | ⟨h, h'⟩) (k | ⟨k, k'⟩)
  · exact .inl (h.trans k)
  · exact .inl (k ▸ h)
  · exact .inl (h ▸ k)
  · exact .inr ⟨h.trans k, h'.trans k'⟩⟩

instance : Std.Antisymm lexLe := ⟨by
  rintro a b (h | ⟨h, h'⟩) (k | ⟨k, k'⟩)
  · exact absurd h (lt_asymm k)
  · exact absurd h (by rw [k]; exact lt_irrefl _)
  · exact absurd k (by rw [h]; exact lt_irrefl _)
  · exact Complex.ext h (le_antisymm h' k')⟩

instance : Std.Total lexLe := ⟨by
  intro a b
  rcases lt_trichotomy a.re b.re with h | h | h
  · exact .inl (.inl h)
  · rcases le_total a.im b.im with k | k
    · exact .inl (.inr ⟨h, k⟩)
    · exact .inr (.inr ⟨h.symm, k⟩)
  · exact .inr (.inl h)⟩

noncomputable instance : DecidableRel lexLe := fun _ _ => Classical.dec _

/-- The eigenvalues returned by `sortedEigens(Mat)` (`functions.py:311-355`, `mag=False`): `eigVals[eigVals.argsort()]`.
Simplification: the numerical eigenvalues are the roots of the characteristic polynomial with multiplicity. -/
noncomputable def sortedEigenvalues {d : ℕ} (M : Op d) : List ℂ := M.charpoly.roots.sort lexLe

/-- `np.real(np.sqrt(v))` of a complex number: the principal square root. -/
noncomputable def realSqrt (v : ℂ) : ℝ := (v ^ (1 / 2 : ℂ)).re

/-- `SySy = tensorProd(sigmay(), sigmay())`. -/
noncomputable def SySy : Op 4 := (kron sigmay sigmay : Op (2 * 2))

/-- `R = state @ (SySy @ state.conj() @ SySy)`. -/
noncomputable def concR (rho : Op 4) : Op 4 := rho * (SySy * rho.map (starRingEnd ℂ) * SySy)

/-- `concurrence` (`functions.py:357-409`). Simplification: `np.round(_, 15)` is left out. Other dimensions than four raise
ValueError (the shapes do not fit) and are excluded by the type. -/
noncomputable def concurrence (s : QState 4) : ℝ :=
  let eigVals := (sortedEigenvalues (concR s.asMat)).map realSqrt
  max 0 (eigVals.getD 3 0 - eigVals.getD 2 0 - eigVals.getD 1 0 - eigVals.getD 0 0)

/-! ## From the characteristic polynomial to the value -/

theorem realSqrt_sq (r : ℝ) (hr : 0 ≤ r) : realSqrt (((r ^ 2 : ℝ)) : ℂ) = r := by
  have h : ((r ^ 2 : ℝ) : ℂ) ^ (1 / 2 : ℂ) = (((r ^ 2) ^ (1 / 2 : ℝ) : ℝ) : ℂ) := by
    rw [Complex.ofReal_cpow (by positivity)]; norm_num
  rw [realSqrt, h, Complex.ofReal_re, ← Real.sqrt_eq_rpow, Real.sqrt_sq hr]

theorem roots_of_prod {ι : Type} [Fintype ι] (f : ι → ℂ) :
    (∏ i, (Polynomial.X - Polynomial.C (f i))).roots = Finset.univ.val.map f := by
  have := Polynomial.roots_multiset_prod_X_sub_C (Finset.univ.val.map f)
  rwa [Multiset.map_map] at this

theorem concurrence_of_charpoly (s : QState 4) (f : Fin 4 → ℝ) (hf : ∀ i, 0 ≤ f i)
    (h : (concR s.asMat).charpoly = ∏ i, (Polynomial.X - Polynomial.C ((f i ^ 2 : ℝ) : ℂ))) :
    ∃ j, (∀ i, f i ≤ f j) ∧ concurrence s = max 0 (2 * f j - ∑ i, f i) := by
  have hr : (concR s.asMat).charpoly.roots = Finset.univ.val.map fun i => ((f i ^ 2 : ℝ) : ℂ) := by
    rw [h, roots_of_prod]
  set L := sortedEigenvalues (concR s.asMat) with hL
  have hperm : (L : Multiset ℂ) = Finset.univ.val.map fun i => ((f i ^ 2 : ℝ) : ℂ) := by
    rw [hL, sortedEigenvalues, Multiset.sort_eq, hr]
  have hmem : ∀ v ∈ L, ∃ i, v = ((f i ^ 2 : ℝ) : ℂ) := by
    intro v hv
    have : v ∈ (L : Multiset ℂ) := hv
    rw [hperm, Multiset.mem_map] at this
    obtain ⟨i, -, rfl⟩ := this
    exact ⟨i, rfl⟩
  have hsorted : L.Pairwise lexLe := Multiset.pairwise_sort _ _
  have hmap : ((L.map realSqrt : List ℝ) : Multiset ℝ) = Finset.univ.val.map f := by
    rw [← Multiset.map_coe, hperm, Multiset.map_map]
    refine Multiset.map_congr rfl fun i _ => ?_
    exact realSqrt_sq _ (hf i)
  have hs2 : (L.map realSqrt).Pairwise (· ≤ ·) := by
    rw [List.pairwise_map]
    refine hsorted.imp_of_mem ?_
    intro a b ha hb hab
    obtain ⟨i, rfl⟩ := hmem a ha
    obtain ⟨j, rfl⟩ := hmem b hb
    rw [realSqrt_sq _ (hf i), realSqrt_sq _ (hf j)]
    have : f i ^ 2 ≤ f j ^ 2 := by
      rcases hab with h | ⟨h, -⟩
      · simpa only [Complex.ofReal_re] using h.le
      · simpa only [Complex.ofReal_re] using h.le
    exact (pow_le_pow_iff_left₀ (hf i) (hf j) two_ne_zero).mp this
  have hc : concurrence s = max 0 ((L.map realSqrt).getD 3 0 - (L.map realSqrt).getD 2 0 - (L.map realSqrt).getD 1 0 -
      (L.map realSqrt).getD 0 0) := rfl
  have hlen : (L.map realSqrt).length = 4 := by
    have := congrArg Multiset.card hmap
    simpa using this
  rw [hc]
  generalize L.map realSqrt = K at hmap hs2 hlen
  match K, hlen with
  | [a, b, c, e], _ =>
    have he : e ∈ (Finset.univ.val.map f) := by rw [← hmap]; simp
    obtain ⟨j, -, hj⟩ := Multiset.mem_map.mp he
    refine ⟨j, ?_, ?_⟩
    · intro i
      have hi : f i ∈ ([a, b, c, e] : List ℝ) := by
        have : f i ∈ (([a, b, c, e] : List ℝ) : Multiset ℝ) := by
          rw [hmap]; exact Multiset.mem_map_of_mem f (Finset.mem_univ_val i)
        exact this
      simp only [List.pairwise_cons, List.mem_cons, List.not_mem_nil, or_false] at hs2 hi
      rw [hj]
      obtain ⟨h1, h2, h3, -⟩ := hs2
      rcases hi with hi | hi | hi | hi
      · rw [hi]; exact h1 e (by simp)
      · rw [hi]; exact h2 e (by simp)
      · rw [hi]; exact h3 e rfl
      · rw [hi]
    · have hsum : ∑ i, f i = a + b + c + e := by
        have := congrArg Multiset.sum hmap
        change _ = ∑ i, f i at this
        rw [← this]
        simp; ring
      rw [hsum, hj]
      congr 1
      simp; ring

/-! ## The matrix `SySy` -/

theorem SySy_entries : SySy = !![0, 0, 0, -1; 0, 0, 1, 0; 0, 1, 0, 0; -1, 0, 0, 0] := by
  have e : ∀ i j : Fin (2 * 2), SySy i j = sigmay (finProdFinEquiv.symm i).1 (finProdFinEquiv.symm j).1 *
      sigmay (finProdFinEquiv.symm i).2 (finProdFinEquiv.symm j).2 := fun i j => rfl
  have s0 : finProdFinEquiv.symm (0 : Fin (2 * 2)) = ((0 : Fin 2), (0 : Fin 2)) := by decide
  have s1 : finProdFinEquiv.symm (1 : Fin (2 * 2)) = ((0 : Fin 2), (1 : Fin 2)) := by decide
  have s2 : finProdFinEquiv.symm (2 : Fin (2 * 2)) = ((1 : Fin 2), (0 : Fin 2)) := by decide
  have s3 : finProdFinEquiv.symm (3 : Fin (2 * 2)) = ((1 : Fin 2), (1 : Fin 2)) := by decide
  ext i j
  rw [e]
  fin_cases i <;> fin_cases j <;> simp only [Fin.zero_eta, Fin.mk_one, Fin.reduceFinMk] <;>
    simp only [s0, s1, s2, s3, sigmay] <;> simp

theorem SySy_transpose : SySyᵀ = SySy := by
  rw [SySy_entries]; ext i j; fin_cases i <;> fin_cases j <;> rfl

theorem SySy_real : SySy.map (starRingEnd ℂ) = SySy := by
  rw [SySy_entries]; ext i j; fin_cases i <;> fin_cases j <;> simp

theorem SySy_hermitian : SySyᴴ = SySy := by
  have : SySyᴴ = (SySyᵀ).map (starRingEnd ℂ) := rfl
  rw [this, SySy_transpose, SySy_real]

theorem SySy_sq : SySy * SySy = 1 := by
  rw [SySy_entries]; ext i j; fin_cases i <;> fin_cases j <;> simp [Matrix.mul_apply, Fin.sum_univ_four]

/-- conjugating the entries -/
theorem map_star_mul {l m n : Type} [Fintype m] (A : Matrix l m ℂ) (B : Matrix m n ℂ) :
    (A * B).map (starRingEnd ℂ) = A.map (starRingEnd ℂ) * B.map (starRingEnd ℂ) := by
  ext i j; simp [Matrix.mul_apply]

/-! ## Decompositions `rho = W W†` -/

section
variable {n : ℕ}

/-- `W^T SySy W`. -/
noncomputable def tau (W : Matrix (Fin 4) (Fin n) ℂ) : Matrix (Fin n) (Fin n) ℂ := Wᵀ * SySy * W

theorem tau_symm (W : Matrix (Fin 4) (Fin n) ℂ) : (tau W)ᵀ = tau W := by
  rw [tau, transpose_mul, transpose_mul, transpose_transpose, SySy_transpose, Matrix.mul_assoc]

theorem tau_star (W : Matrix (Fin 4) (Fin n) ℂ) : Wᴴ * SySy * W.map (starRingEnd ℂ) = (tau W)ᴴ := by
  rw [tau, conjTranspose_mul, conjTranspose_mul, SySy_hermitian, ← Matrix.mul_assoc]
  rfl

theorem concR_factor (W : Matrix (Fin 4) (Fin n) ℂ) :
    concR (W * Wᴴ) = W * (Wᴴ * SySy * W.map (starRingEnd ℂ) * (Wᵀ * SySy)) := by
  have h : (Wᴴ).map (starRingEnd ℂ) = Wᵀ := by ext i j; simp
  rw [concR, map_star_mul, h]
  simp only [Matrix.mul_assoc]

theorem concR_charpoly (W : Matrix (Fin 4) (Fin n) ℂ) :
    Polynomial.X ^ n * (concR (W * Wᴴ)).charpoly = Polynomial.X ^ 4 * ((tau W)ᴴ * tau W).charpoly := by
  have := charpoly_mul_comm' W (Wᴴ * SySy * W.map (starRingEnd ℂ) * (Wᵀ * SySy))
  rw [← concR_factor, Matrix.mul_assoc _ _ W, tau_star] at this
  simpa [tau] using this

theorem concR_sum (W : Matrix (Fin 4) (Fin n) ℂ) :
    ((concR (W * Wᴴ)).charpoly.roots.map fun v => Real.sqrt ‖v‖).sum = traceNorm (tau W) := by
  have h := congrArg Polynomial.roots (concR_charpoly W)
  rw [Polynomial.roots_mul (mul_ne_zero (pow_ne_zero _ Polynomial.X_ne_zero) (charpoly_monic _).ne_zero),
    Polynomial.roots_mul (mul_ne_zero (pow_ne_zero _ Polynomial.X_ne_zero) (charpoly_monic _).ne_zero),
    Polynomial.roots_X_pow, Polynomial.roots_X_pow] at h
  have h2 := congrArg (fun m : Multiset ℂ => (m.map fun v => Real.sqrt ‖v‖).sum) h
  simpa [Multiset.map_nsmul, Multiset.sum_nsmul, traceNorm] using h2

theorem concR_root (W : Matrix (Fin 4) (Fin n) ℂ) (v : ℂ) (hv : v ≠ 0) (h : (concR (W * Wᴴ)).charpoly.eval v = 0) :
    ((tau W)ᴴ * tau W).charpoly.eval v = 0 := by
  have := congrArg (Polynomial.eval v) (concR_charpoly W)
  rw [Polynomial.eval_mul, h, mul_zero, Polynomial.eval_mul, Polynomial.eval_pow, Polynomial.eval_X] at this
  exact (mul_eq_zero.mp this.symm).resolve_left (pow_ne_zero _ hv)
end

/-- for a positive matrix the eigenvalues of `R` are squares of non-negative numbers -/
theorem concR_pos {rho : Op 4} (h : rho.PosSemidef) : ∃ f : Fin 4 → ℝ, (∀ i, 0 ≤ f i) ∧
    (concR rho).charpoly = ∏ i, (Polynomial.X - Polynomial.C ((f i ^ 2 : ℝ) : ℂ)) := by
  obtain ⟨B, hB⟩ := posSemidef_factor h
  have hp := posSemidef_conjTranspose_mul_self (tau Bᴴ)
  refine ⟨fun i => Real.sqrt (hp.isHermitian.eigenvalues i), fun i => Real.sqrt_nonneg _, ?_⟩
  have h1 := concR_charpoly Bᴴ
  rw [conjTranspose_conjTranspose, ← hB] at h1
  have h2 := mul_left_cancel₀ (pow_ne_zero 4 Polynomial.X_ne_zero) h1
  rw [h2, hp.isHermitian.charpoly_eq]
  refine Finset.prod_congr rfl fun i _ => ?_
  rw [Real.sq_sqrt (hp.eigenvalues_nonneg i)]
  rfl

/-! ## Symmetric matrices: a singular value against the diagonal -/

section
variable {ι : Type} [Fintype ι] [DecidableEq ι]

/-- If `T` is positive and `T^2 = D†D`, the trace norm of `D` is the trace of `T`. -/
theorem traceNorm_of_sqrt {D T : Matrix ι ι ℂ} (hT : T.PosSemidef) (h : T * T = Dᴴ * D) : traceNorm D = T.trace.re := by
  have h1 : traceNorm D = traceNorm T := by
    rw [traceNorm, traceNorm, ← h, hT.isHermitian.eq]
  rw [h1, traceNorm_pos hT]

theorem exists_psd_sqrt (D : Matrix ι ι ℂ) : ∃ S : Matrix ι ι ℂ, S.PosSemidef ∧ S * S = Dᴴ * D := by
  have hp := posSemidef_conjTranspose_mul_self D
  obtain ⟨U, u1, u2, u3⟩ := exists_diag hp.isHermitian
  refine ⟨U * diagonal (fun i => ((Real.sqrt (hp.isHermitian.eigenvalues i) : ℝ) : ℂ)) * Uᴴ, ?_, ?_⟩
  · exact (PosSemidef.diagonal (n := ι) (d := fun i => ((Real.sqrt (hp.isHermitian.eigenvalues i) : ℝ) : ℂ)) fun i => by
      simp [Real.sqrt_nonneg]).mul_mul_conjTranspose_same U
  · conv_rhs => rw [u3]
    calc _ = U * diagonal (fun i => ((Real.sqrt (hp.isHermitian.eigenvalues i) : ℝ) : ℂ)) * (Uᴴ * U) *
          diagonal (fun i => ((Real.sqrt (hp.isHermitian.eigenvalues i) : ℝ) : ℂ)) * Uᴴ := by simp only [Matrix.mul_assoc]
      _ = U * (diagonal (fun i => ((Real.sqrt (hp.isHermitian.eigenvalues i) : ℝ) : ℂ)) *
          diagonal (fun i => ((Real.sqrt (hp.isHermitian.eigenvalues i) : ℝ) : ℂ))) * Uᴴ := by
          rw [u1, Matrix.mul_one]; simp only [Matrix.mul_assoc]
      _ = _ := by
          rw [diagonal_mul_diagonal]
          congr 3
          funext i
          rw [← Complex.ofReal_mul, Real.mul_self_sqrt (hp.eigenvalues_nonneg i)]

/-- a Hermitian matrix with square one lies between `-1` and `1` -/
theorem between_of_involution {W : Matrix ι ι ℂ} (h1 : Wᴴ = W) (h2 : W * W = 1) : Between W := by
  constructor
  · have : (1 : Matrix ι ι ℂ) - W = (1 / 2 : ℂ) • ((1 - W)ᴴ * (1 - W)) := by
      rw [conjTranspose_sub, conjTranspose_one, h1, Matrix.sub_mul, Matrix.mul_sub, Matrix.mul_sub, h2, Matrix.one_mul,
        Matrix.mul_one, Matrix.one_mul]
      module
    rw [this]
    exact (posSemidef_conjTranspose_mul_self _).smul (by rw [Complex.le_def]; norm_num)
  · have : (1 : Matrix ι ι ℂ) + W = (1 / 2 : ℂ) • ((1 + W)ᴴ * (1 + W)) := by
      rw [conjTranspose_add, conjTranspose_one, h1, Matrix.add_mul, Matrix.mul_add, Matrix.mul_add, h2, Matrix.one_mul,
        Matrix.mul_one, Matrix.one_mul]
      module
    rw [this]
    exact (posSemidef_conjTranspose_mul_self _).smul (by rw [Complex.le_def]; norm_num)

/-- The absolute diagonal entries add up to at most the trace norm. -/
theorem sum_diag_le (M : Matrix ι ι ℂ) : ∑ i, ‖M i i‖ ≤ traceNorm M := by
  have hph : ∀ z : ℂ, ∃ u : ℂ, u * (starRingEnd ℂ) u = 1 ∧ (starRingEnd ℂ) u * z = (‖z‖ : ℂ) := by
    intro z
    by_cases hz : z = 0
    · exact ⟨1, by simp [hz]⟩
    · have hn : (‖z‖ : ℂ) ≠ 0 := by simpa using hz
      refine ⟨z / ‖z‖, ?_, ?_⟩
      · rw [map_div₀, Complex.conj_ofReal, div_mul_div_comm, Complex.mul_conj', ← sq, div_self (pow_ne_zero 2 hn)]
      · rw [map_div₀, Complex.conj_ofReal, div_mul_eq_mul_div, mul_comm, Complex.mul_conj', sq, mul_div_assoc, div_self hn, mul_one]
  choose u hu1 hu2 using fun i => hph (M i i)
  set Θ : Matrix ι ι ℂ := diagonal u with hΘ
  have hΘ1 : Θ * Θᴴ = 1 := by
    rw [hΘ, diagonal_conjTranspose, diagonal_mul_diagonal, ← diagonal_one]
    congr 1
    funext i
    exact hu1 i
  have hΘ2 : Θᴴ * Θ = 1 := mul_eq_one_comm.mp hΘ1
  have hW := between_of_involution (dilation_hermitian Θ) (by
    rw [dilation, fromBlocks_multiply]
    simp [hΘ1, hΘ2, fromBlocks_one])
  have h := trace_mul_le (dilation_hermitian M) hW
  rw [traceNorm_dilation] at h
  have ht : (dilation Θ * dilation M).trace = (Θ * Mᴴ).trace + (Θᴴ * M).trace := by
    rw [dilation, dilation, fromBlocks_multiply]
    simp [trace, Fintype.sum_sum_type]
  have h2 : (Θᴴ * M).trace = ((∑ i, ‖M i i‖ : ℝ) : ℂ) := by
    rw [hΘ, diagonal_conjTranspose]
    simp only [trace, diag_apply, diagonal_mul, Pi.star_apply, RCLike.star_def, hu2]
    push_cast; rfl
  have h1 : (Θ * Mᴴ).trace = ((∑ i, ‖M i i‖ : ℝ) : ℂ) := by
    have : (Θ * Mᴴ) = (M * Θᴴ)ᴴ := by rw [conjTranspose_mul, conjTranspose_conjTranspose]
    rw [this, trace_conjTranspose, Matrix.trace_mul_comm, h2]
    simp
  rw [ht, h1, h2, Complex.add_re, Complex.ofReal_re] at h
  linarith

/-- For a symmetric matrix every singular value has a vector with `τ x = σ conj(x)`. -/
theorem exists_takagi {τ : Matrix ι ι ℂ} (hs : τᵀ = τ) (σ : ℝ) (hσ : 0 < σ)
    (hr : (τᴴ * τ).charpoly.eval ((σ ^ 2 : ℝ) : ℂ) = 0) :
    ∃ x : ι → ℂ, ∑ i, ‖x i‖ ^ 2 = 1 ∧ τ *ᵥ x = fun i => (σ : ℂ) * (starRingEnd ℂ) (x i) := by
  have hconj : τᴴ = τ.map (starRingEnd ℂ) := by
    have : τᴴ = (τᵀ).map (starRingEnd ℂ) := rfl
    rw [this, hs]
  obtain ⟨v, hv0, hv⟩ : ∃ v : ι → ℂ, v ≠ 0 ∧ (τᴴ * τ) *ᵥ v = ((σ ^ 2 : ℝ) : ℂ) • v := by
    rw [eval_charpoly] at hr
    obtain ⟨v, hv0, hv⟩ := exists_mulVec_eq_zero_iff.mpr hr
    refine ⟨v, hv0, ?_⟩
    rw [sub_mulVec, sub_eq_zero] at hv
    rw [← hv]
    ext i
    simp [scalar_apply, mulVec_diagonal]
  let cj : (ι → ℂ) → ι → ℂ := fun w i => (starRingEnd ℂ) (w i)
  have hcj : ∀ w, cj (τ *ᵥ w) = τᴴ *ᵥ cj w := by
    intro w; funext i
    rw [hconj]
    simp only [cj, mulVec, dotProduct, map_sum, map_mul, Matrix.map_apply]
  have hcc : ∀ w, cj (cj w) = w := fun w => by funext i; simp [cj]
  have main : ∀ w : ι → ℂ, (τᴴ * τ) *ᵥ w = ((σ ^ 2 : ℝ) : ℂ) • w →
      τ *ᵥ (cj (τ *ᵥ w) + (σ : ℂ) • w) = (σ : ℂ) • cj (cj (τ *ᵥ w) + (σ : ℂ) • w) := by
    intro w hw
    have h1 : cj (τ *ᵥ (cj (τ *ᵥ w) + (σ : ℂ) • w)) = (σ : ℂ) • (cj (τ *ᵥ w) + (σ : ℂ) • w) := by
      rw [hcj]
      have : cj (cj (τ *ᵥ w) + (σ : ℂ) • w) = τ *ᵥ w + (σ : ℂ) • cj w := by
        funext i; simp [cj]
      rw [this, mulVec_add, mulVec_mulVec, hw, mulVec_smul, ← hcj, smul_add, smul_smul, add_comm]
      congr 2
      push_cast; ring
    have h2 := congrArg cj h1
    rw [hcc] at h2
    rw [h2]
    funext i
    simp only [cj, Pi.smul_apply, smul_eq_mul, map_mul, Complex.conj_ofReal]
  -- one of the two candidates is not zero
  obtain ⟨y, hy0, hy⟩ : ∃ y : ι → ℂ, y ≠ 0 ∧ τ *ᵥ y = (σ : ℂ) • cj y := by
    by_cases h1 : cj (τ *ᵥ v) + (σ : ℂ) • v = 0
    · refine ⟨_, ?_, main (Complex.I • v) (by rw [mulVec_smul, hv, smul_comm])⟩
      intro h2
      apply hv0
      have e : cj (τ *ᵥ (Complex.I • v)) = -(Complex.I • cj (τ *ᵥ v)) := by
        rw [mulVec_smul]; funext i; simp [cj]
      rw [e] at h2
      have h3 : cj (τ *ᵥ v) = -((σ : ℂ) • v) := eq_neg_of_add_eq_zero_left h1
      rw [h3] at h2
      funext i
      have h4 := congrFun h2 i
      simp only [Pi.add_apply, Pi.neg_apply, Pi.smul_apply, smul_eq_mul, Pi.zero_apply] at h4 ⊢
      have h5 : (2 * Complex.I * σ : ℂ) * v i = 0 := by rw [← h4]; ring
      have h6 : (2 * Complex.I * σ : ℂ) ≠ 0 := by simp [hσ.ne']
      exact (mul_eq_zero.mp h5).resolve_left h6
    · exact ⟨_, h1, main v hv⟩
  have hpos : 0 < ∑ i, ‖y i‖ ^ 2 := by
    refine lt_of_le_of_ne (Finset.sum_nonneg fun i _ => by positivity) ?_
    intro h
    apply hy0
    funext i
    have := (Finset.sum_eq_zero_iff_of_nonneg (fun i _ => by positivity)).mp h.symm i (Finset.mem_univ i)
    simpa using this
  set N := Real.sqrt (∑ i, ‖y i‖ ^ 2) with hN
  have hNpos : 0 < N := Real.sqrt_pos.mpr hpos
  refine ⟨((1 / N : ℝ) : ℂ) • y, ?_, ?_⟩
  · simp only [Pi.smul_apply, smul_eq_mul, norm_mul, mul_pow, ← Finset.mul_sum, Complex.norm_real, Real.norm_eq_abs, sq_abs]
    rw [div_pow, hN, Real.sq_sqrt hpos.le, one_pow, one_div, inv_mul_cancel₀ hpos.ne']
  · rw [mulVec_smul, hy]
    funext i
    simp [cj]; ring

theorem takagi_diag {τ : Matrix ι ι ℂ} (hs : τᵀ = τ) (σ : ℝ) (hσ : 0 < σ)
    (hr : (τᴴ * τ).charpoly.eval ((σ ^ 2 : ℝ) : ℂ) = 0) : 2 * σ - traceNorm τ ≤ ∑ i, ‖τ i i‖ := by
  obtain ⟨x, hx1, hx⟩ := exists_takagi hs σ hσ hr
  obtain ⟨S, hS, hSS⟩ := exists_psd_sqrt τ
  have hconj : τᴴ = τ.map (starRingEnd ℂ) := by
    have : τᴴ = (τᵀ).map (starRingEnd ℂ) := rfl
    rw [this, hs]
  set P : Matrix ι ι ℂ := vecMulVec x (star x) with hP
  have hxx : star x ⬝ᵥ x = 1 := by
    have : star x ⬝ᵥ x = ((∑ i, ‖x i‖ ^ 2 : ℝ) : ℂ) := by
      simp only [dotProduct, Pi.star_apply, RCLike.star_def]
      push_cast
      refine Finset.sum_congr rfl fun i _ => ?_
      rw [mul_comm, Complex.mul_conj']
    rw [this, hx1]; simp
  have hPP : P * P = P := by
    rw [hP, vecMulVec_mul_vecMulVec, hxx]; simp
  have hPh : Pᴴ = P := by
    ext i j; simp [hP, vecMulVec_apply, mul_comm]
  have hA : (τᴴ * τ) *ᵥ x = ((σ ^ 2 : ℝ) : ℂ) • x := by
    rw [← mulVec_mulVec, hx, hconj]
    have h1 := congrArg (fun w : ι → ℂ => fun i => (starRingEnd ℂ) (w i)) hx
    funext i
    have h2 := congrFun h1 i
    simp only [mulVec, dotProduct, map_sum, map_mul, Complex.conj_ofReal, Complex.conj_conj] at h2
    simp only [mulVec, dotProduct, Matrix.map_apply, Pi.smul_apply, smul_eq_mul]
    calc ∑ j, (starRingEnd ℂ) (τ i j) * ((σ : ℂ) * (starRingEnd ℂ) (x j))
        = (σ : ℂ) * ∑ j, (starRingEnd ℂ) (τ i j) * (starRingEnd ℂ) (x j) := by
          rw [Finset.mul_sum]; exact Finset.sum_congr rfl fun j _ => by ring
      _ = _ := by rw [h2]; push_cast; ring
  have hSx : S *ᵥ x = (σ : ℂ) • x := by
    set w := S *ᵥ x - (σ : ℂ) • x with hw
    have h1 : S *ᵥ w + (σ : ℂ) • w = 0 := by
      rw [hw, mulVec_sub, mulVec_mulVec, hSS, hA, mulVec_smul, smul_sub, smul_smul]
      push_cast
      rw [sq]; abel
    have h2 : star w ⬝ᵥ (S *ᵥ w) + (σ : ℂ) * (star w ⬝ᵥ w) = 0 := by
      have := congrArg (fun z => star w ⬝ᵥ z) h1
      simpa [dotProduct_add, dotProduct_smul] using this
    have h3 := (Complex.le_def.mp (hS.dotProduct_mulVec_nonneg w)).1
    have h4 : star w ⬝ᵥ w = ((∑ i, ‖w i‖ ^ 2 : ℝ) : ℂ) := by
      simp only [dotProduct, Pi.star_apply, RCLike.star_def]
      push_cast
      refine Finset.sum_congr rfl fun i _ => ?_
      rw [mul_comm, Complex.mul_conj']
    rw [h4] at h2
    have h5 := congrArg Complex.re h2
    rw [Complex.add_re, Complex.re_ofReal_mul, Complex.ofReal_re, Complex.zero_re] at h5
    have h6 : 0 ≤ ∑ i, ‖w i‖ ^ 2 := Finset.sum_nonneg fun i _ => by positivity
    rw [Complex.zero_re] at h3
    have h7 : ∑ i, ‖w i‖ ^ 2 = 0 := by
      have : σ * ∑ i, ‖w i‖ ^ 2 = 0 := le_antisymm (by linarith) (by positivity)
      exact (mul_eq_zero.mp this).resolve_left hσ.ne'
    have h8 : w = 0 := by
      funext i
      have := (Finset.sum_eq_zero_iff_of_nonneg (fun i _ => by positivity)).mp h7 i (Finset.mem_univ i)
      simpa using this
    exact sub_eq_zero.mp h8
  have hSP : S * P = (σ : ℂ) • P := by rw [hP, mul_vecMulVec, hSx, smul_vecMulVec]
  have hPS : P * S = (σ : ℂ) • P := by
    have := congrArg conjTranspose hSP
    rw [conjTranspose_mul, hS.isHermitian.eq, hPh, conjTranspose_smul, hPh] at this
    simpa using this
  set rest := τ * (1 - P) with hrest
  have hTpos : (S * (1 - P)).PosSemidef := by
    have : S * (1 - P) = (1 - P)ᴴ * S * (1 - P) := by
      rw [conjTranspose_sub, conjTranspose_one, hPh, Matrix.sub_mul 1 P S, Matrix.one_mul, hPS, ← hSP]
      have e : S - S * P = S * (1 - P) := by rw [Matrix.mul_sub, Matrix.mul_one]
      have e2 : (1 - P) * (1 - P) = 1 - P := by
        rw [Matrix.sub_mul, Matrix.mul_sub, Matrix.mul_sub, hPP]; simp
      rw [e, Matrix.mul_assoc, e2]
    rw [this]
    exact hS.conjTranspose_mul_mul_same _
  have e2 : (1 - P) * (1 - P) = 1 - P := by
    rw [Matrix.sub_mul, Matrix.mul_sub, Matrix.mul_sub, hPP]; simp
  have hcomm : (1 - P) * S = S * (1 - P) := by
    rw [Matrix.sub_mul, Matrix.mul_sub, hPS, hSP, Matrix.one_mul, Matrix.mul_one]
  have hTT : S * (1 - P) * (S * (1 - P)) = restᴴ * rest := by
    have h1 : restᴴ * rest = (1 - P) * (τᴴ * τ) * (1 - P) := by
      rw [hrest, conjTranspose_mul, conjTranspose_sub, conjTranspose_one, hPh]
      simp only [Matrix.mul_assoc]
    rw [h1, ← hSS, ← Matrix.mul_assoc (1 - P), hcomm, ← Matrix.mul_assoc]
  have hnorm : traceNorm rest = traceNorm τ - σ := by
    rw [traceNorm_of_sqrt hTpos hTT, traceNorm_of_sqrt hS hSS, Matrix.mul_sub, Matrix.mul_one, trace_sub, hSP, trace_smul, hP,
      trace_vecMulVec, dotProduct_comm, hxx]
    simp
  have hτ : ∀ i, τ i i = rest i i + (σ : ℂ) * ((starRingEnd ℂ) (x i) * (starRingEnd ℂ) (x i)) := by
    intro i
    have h1 : τ * P = vecMulVec (fun i => (σ : ℂ) * (starRingEnd ℂ) (x i)) (star x) := by
      rw [hP, mul_vecMulVec, hx]
    rw [hrest, Matrix.mul_sub, Matrix.mul_one, h1, Matrix.sub_apply, vecMulVec_apply]
    simp only [Pi.star_apply, RCLike.star_def]
    ring
  have hlow : ∀ i, σ * ‖x i‖ ^ 2 - ‖rest i i‖ ≤ ‖τ i i‖ := by
    intro i
    have h1 : ‖(σ : ℂ) * ((starRingEnd ℂ) (x i) * (starRingEnd ℂ) (x i))‖ = σ * ‖x i‖ ^ 2 := by
      rw [norm_mul, norm_mul, RCLike.norm_conj, Complex.norm_real, Real.norm_of_nonneg hσ.le, sq]
    rw [← h1]
    have h2 : (σ : ℂ) * ((starRingEnd ℂ) (x i) * (starRingEnd ℂ) (x i)) = τ i i - rest i i := by rw [hτ i]; ring
    rw [h2]
    have := norm_sub_le (τ i i) (rest i i)
    linarith
  have hsum : σ - ∑ i, ‖rest i i‖ ≤ ∑ i, ‖τ i i‖ := by
    have := Finset.sum_le_sum (s := Finset.univ) fun i _ => hlow i
    rwa [Finset.sum_sub_distrib, ← Finset.mul_sum, hx1, mul_one] at this
  have := sum_diag_le rest
  rw [hnorm] at this
  linarith
end

/-! ## Theorems -/

theorem asMat_ket (k : Ket 4) : (QState.ket k).asMat = k * kᴴ := by
  simp only [QState.asMat]
  rfl

theorem tau_ket (k : Ket 4) : tau k = !![2 * (k 1 0 * k 2 0 - k 0 0 * k 3 0)] := by
  ext i j
  obtain rfl : i = 0 := Subsingleton.elim _ _
  obtain rfl : j = 0 := Subsingleton.elim _ _
  rw [tau, SySy_entries]
  simp [Matrix.mul_apply, Fin.sum_univ_four]
  ring

/-- **C60 (pure states).** For a ket with components `a, b, c, d` the concurrence is `2 |ad - bc|`. -/
theorem C60_pure (k : Ket 4) : concurrence (.ket k) = 2 * ‖k 0 0 * k 3 0 - k 1 0 * k 2 0‖ := by
  set c : ℂ := 2 * (k 1 0 * k 2 0 - k 0 0 * k 3 0) with hc
  have hp := concR_charpoly k
  have h1 : ((tau k)ᴴ * tau k).charpoly = Polynomial.X - Polynomial.C ((‖c‖ ^ 2 : ℝ) : ℂ) := by
    rw [tau_ket, ← hc, charpoly, det_unique, charmatrix_apply_eq]
    congr 2
    simp [Matrix.mul_apply]
    rw [mul_comm, Complex.mul_conj']
  rw [h1] at hp
  have h2 : (concR (QState.ket k).asMat).charpoly =
      ∏ i, (Polynomial.X - Polynomial.C (((![‖c‖, 0, 0, 0] : Fin 4 → ℝ) i ^ 2 : ℝ) : ℂ)) := by
    rw [asMat_ket]
    refine mul_left_cancel₀ (pow_ne_zero 1 (Polynomial.X_ne_zero (R := ℂ))) ?_
    rw [hp, Fin.prod_univ_four]
    simp
    ring
  obtain ⟨j, hj, hv⟩ := concurrence_of_charpoly (.ket k) ![‖c‖, 0, 0, 0] (by
    intro i; fin_cases i <;> simp) h2
  have hjj : (![‖c‖, 0, 0, 0] : Fin 4 → ℝ) j = ‖c‖ := by
    refine le_antisymm ?_ (hj 0)
    fin_cases j <;> simp
  rw [hv, hjj, Fin.sum_univ_four]
  have : ‖c‖ = 2 * ‖k 0 0 * k 3 0 - k 1 0 * k 2 0‖ := by
    rw [hc, norm_mul, norm_sub_rev]; simp
  simp only [cons_val_zero, cons_val_one, cons_val]
  rw [this, max_eq_right] <;> nlinarith [norm_nonneg (k 0 0 * k 3 0 - k 1 0 * k 2 0)]

theorem kron_ket (a b : Ket 2) (i j : Fin 2) : (kron a b : Matrix (Fin (2 * 2)) (Fin (1 * 1)) ℂ) (finProdFinEquiv (i, j)) 0 =
    a i 0 * b j 0 := by
  simp only [kron, Matrix.of_apply, Equiv.symm_apply_apply]
  congr 2

/-- **C60 (product kets).** The concurrence of a ket is zero exactly when the ket is a tensor product of two qubit kets. -/
theorem C60_pure_product (k : Ket 4) : concurrence (.ket k) = 0 ↔ ∃ a b : Ket 2, k = (kron a b : Matrix (Fin (2 * 2)) (Fin (1 * 1)) ℂ) := by
  have e0 : (0 : Fin 4) = finProdFinEquiv ((0 : Fin 2), (0 : Fin 2)) := by decide
  have e1 : (1 : Fin 4) = finProdFinEquiv ((0 : Fin 2), (1 : Fin 2)) := by decide
  have e2 : (2 : Fin 4) = finProdFinEquiv ((1 : Fin 2), (0 : Fin 2)) := by decide
  have e3 : (3 : Fin 4) = finProdFinEquiv ((1 : Fin 2), (1 : Fin 2)) := by decide
  have hk : ∀ a b : Ket 2, (k = (kron a b : Matrix (Fin (2 * 2)) (Fin (1 * 1)) ℂ)) ↔
      k 0 0 = a 0 0 * b 0 0 ∧ k 1 0 = a 0 0 * b 1 0 ∧ k 2 0 = a 1 0 * b 0 0 ∧ k 3 0 = a 1 0 * b 1 0 := by
    intro a b
    have hx : ∀ i j : Fin 2, (kron a b : Matrix (Fin (2 * 2)) (Fin (1 * 1)) ℂ) (finProdFinEquiv (i, j)) 0 = a i 0 * b j 0 := kron_ket a b
    constructor
    · intro h
      rw [← hx, ← hx, ← hx, ← hx, h, e0, e1, e2, e3]
      exact ⟨rfl, rfl, rfl, rfl⟩
    · rintro ⟨h0, h1, h2, h3⟩
      ext i j
      obtain rfl : j = 0 := Subsingleton.elim _ _
      have : i = 0 ∨ i = 1 ∨ i = 2 ∨ i = 3 := by fin_cases i <;> simp
      rcases this with rfl | rfl | rfl | rfl
      · rw [h0, ← hx]; exact congrArg (fun z => (kron a b : Matrix (Fin (2 * 2)) (Fin (1 * 1)) ℂ) z 0) e0.symm
      · rw [h1, ← hx]; exact congrArg (fun z => (kron a b : Matrix (Fin (2 * 2)) (Fin (1 * 1)) ℂ) z 0) e1.symm
      · rw [h2, ← hx]; exact congrArg (fun z => (kron a b : Matrix (Fin (2 * 2)) (Fin (1 * 1)) ℂ) z 0) e2.symm
      · rw [h3, ← hx]; exact congrArg (fun z => (kron a b : Matrix (Fin (2 * 2)) (Fin (1 * 1)) ℂ) z 0) e3.symm
  have h0 : concurrence (.ket k) = 0 ↔ k 0 0 * k 3 0 = k 1 0 * k 2 0 := by
    rw [C60_pure, mul_eq_zero, norm_eq_zero, sub_eq_zero]; simp
  rw [h0]
  constructor
  · intro h
    by_cases ha : k 0 0 = 0 ∧ k 1 0 = 0
    · refine ⟨!![0; 1], !![k 2 0; k 3 0], (hk _ _).mpr ?_⟩
      simp [ha.1, ha.2]
    · by_cases h00 : k 0 0 = 0
      · have h10 : k 1 0 ≠ 0 := fun h' => ha ⟨h00, h'⟩
        refine ⟨!![1; k 3 0 / k 1 0], !![k 0 0; k 1 0], (hk _ _).mpr ?_⟩
        have h20 : k 2 0 = 0 := by
          rw [h00, zero_mul] at h
          exact (mul_eq_zero.mp h.symm).resolve_left h10
        simp [h00, h20, h10]
      · refine ⟨!![1; k 2 0 / k 0 0], !![k 0 0; k 1 0], (hk _ _).mpr ?_⟩
        refine ⟨by simp, by simp, by simp [h00], ?_⟩
        simp
        field_simp
        linear_combination h
  · rintro ⟨a, b, h⟩
    obtain ⟨h0, h1, h2, h3⟩ := (hk a b).mp h
    rw [h0, h1, h2, h3]; ring

/-- A product ket and an entangled one. -/
example : concurrence (.ket !![1; 1; 1; 1]) = 0 ∧ concurrence (.ket !![3 / 5; 0; 0; 4 / 5]) = 24 / 25 := by
  constructor
  · rw [C60_pure]; simp
  · rw [C60_pure]; simp [norm_div]; norm_num

/-- **C60 (documented formula).** With `S` the square root of the density matrix and `T` the square root of `S ρ~ S`, the result is
`max(0, λ1 - λ2 - λ3 - λ4)` for the eigenvalues of `T`: the code instead takes square roots of the eigenvalues of `ρ ρ~`. -/
theorem C60_documented (rho S T : Op 4) (hS : S * S = rho) (hT : T.PosSemidef)
    (hTT : T * T = S * (SySy * rho.map (starRingEnd ℂ) * SySy) * S) :
    ∃ j, (∀ i, hT.isHermitian.eigenvalues i ≤ hT.isHermitian.eigenvalues j) ∧
      concurrence (.mat rho) = max 0 (hT.isHermitian.eigenvalues j - ∑ i ∈ Finset.univ.erase j, hT.isHermitian.eigenvalues i) := by
  obtain ⟨U, u1, u2, u3⟩ := exists_diag hT.isHermitian
  have h : (concR (QState.mat rho).asMat).charpoly =
      ∏ i, (Polynomial.X - Polynomial.C ((hT.isHermitian.eigenvalues i ^ 2 : ℝ) : ℂ)) := by
    have h1 : (concR rho).charpoly = (T * T).charpoly := by
      rw [concR, hTT, ← hS, Matrix.mul_assoc S S, charpoly_mul_comm S]
    have h2 : T * T = U * (diagonal (fun i => ((hT.isHermitian.eigenvalues i ^ 2 : ℝ) : ℂ)) * Uᴴ) := by
      conv_lhs => rw [u3]
      calc _ = U * diagonal (fun i => ((hT.isHermitian.eigenvalues i : ℝ) : ℂ)) * (Uᴴ * U) *
            diagonal (fun i => ((hT.isHermitian.eigenvalues i : ℝ) : ℂ)) * Uᴴ := by simp only [Matrix.mul_assoc]
        _ = U * (diagonal (fun i => ((hT.isHermitian.eigenvalues i : ℝ) : ℂ)) *
            diagonal (fun i => ((hT.isHermitian.eigenvalues i : ℝ) : ℂ)) * Uᴴ) := by
            rw [u1, Matrix.mul_one]; simp only [Matrix.mul_assoc]
        _ = _ := by
            rw [diagonal_mul_diagonal]
            congr 3
            funext i
            push_cast; ring
    change (concR rho).charpoly = _
    rw [h1, h2, charpoly_mul_comm, Matrix.mul_assoc, u1, Matrix.mul_one, charpoly_diagonal]
  obtain ⟨j, hj, hv⟩ := concurrence_of_charpoly (.mat rho) _ hT.eigenvalues_nonneg h
  refine ⟨j, hj, ?_⟩
  rw [hv, ← Finset.add_sum_erase _ _ (Finset.mem_univ j)]
  congr 1; ring

/-- **C60 (documented formula).** The two square roots exist for every positive matrix. -/
theorem C60_documented_exists (rho : Op 4) (h : rho.PosSemidef) : ∃ S T : Op 4, S.PosSemidef ∧ S * S = rho ∧ T.PosSemidef ∧
    T * T = S * (SySy * rho.map (starRingEnd ℂ) * SySy) * S := by
  obtain ⟨B, hB⟩ := posSemidef_factor h
  obtain ⟨S, hS, hSS⟩ := exists_psd_sqrt B
  have hrho : S * S = rho := by rw [hSS, hB]
  obtain ⟨T, hT, hTT⟩ := exists_psd_sqrt (S.map (starRingEnd ℂ) * SySy * S)
  refine ⟨S, T, hS, hrho, hT, ?_⟩
  have hSc : (S.map (starRingEnd ℂ))ᴴ = S.map (starRingEnd ℂ) := by
    have h1 := hS.isHermitian.eq
    ext i j
    have := congrFun (congrFun h1 j) i
    simp only [conjTranspose_apply, RCLike.star_def, Matrix.map_apply, Complex.conj_conj] at this ⊢
    exact this.symm
  rw [hTT, conjTranspose_mul, conjTranspose_mul, hS.isHermitian.eq, SySy_hermitian, hSc, ← hrho, map_star_mul]
  simp only [Matrix.mul_assoc]

/-- **C60 (ket and density matrix).** A ket and its density matrix have the same concurrence. -/
theorem C60_ket_density (k : Ket 4) : concurrence (.mat (outerProd k)) = concurrence (.ket k) := by
  have : (QState.ket k).asMat = outerProd k := by simp [QState.asMat]
  simp only [concurrence, this]
  rfl

/-- The spin-flipped matrix of a density matrix is a density matrix. -/
theorem flip_pos {rho : Op 4} (h : rho.PosSemidef) : (SySy * rho.map (starRingEnd ℂ) * SySy).PosSemidef := by
  have h1 : rho.map (starRingEnd ℂ) = rhoᵀ := by
    ext i j
    have := congrFun (congrFun h.isHermitian.eq j) i
    simpa [conjTranspose_apply] using this
  rw [h1]
  have := h.transpose.conjTranspose_mul_mul_same SySy
  rwa [SySy_hermitian] at this

theorem flip_trace (rho : Op 4) : (SySy * rho.map (starRingEnd ℂ) * SySy).trace = (starRingEnd ℂ) rho.trace := by
  rw [trace_mul_comm, ← Matrix.mul_assoc, SySy_sq, Matrix.one_mul]
  simp [trace]

/-- **C60 (range).** The concurrence of a density matrix is between zero and one. -/
theorem C60_range (rho : Op 4) (h : IsDensity rho) : 0 ≤ concurrence (.mat rho) ∧ concurrence (.mat rho) ≤ 1 := by
  refine ⟨le_max_left _ _, ?_⟩
  obtain ⟨f, hf, hc⟩ := concR_pos h.pos
  obtain ⟨j, -, hv⟩ := concurrence_of_charpoly (.mat rho) f hf hc
  have htr : (concR rho).trace = ((∑ i, f i ^ 2 : ℝ) : ℂ) := by
    rw [trace_eq_sum_roots_charpoly, hc, roots_of_prod]
    push_cast
    rfl
  obtain ⟨r, hr, -, hr1⟩ := trace_mul_bounds h.pos (flip_pos h.pos)
  rw [flip_trace, h.tr] at hr1
  have hr2 : ((∑ i, f i ^ 2 : ℝ) : ℂ) = (r : ℂ) := by rw [← htr, ← hr]; rfl
  have hr3 : ∑ i, f i ^ 2 = r := Complex.ofReal_injective hr2
  have hj1 : f j ^ 2 ≤ 1 := by
    have := Finset.single_le_sum (f := fun i => f i ^ 2) (fun i _ => sq_nonneg _) (Finset.mem_univ j)
    simp at hr1 this
    linarith
  have hj2 : f j ≤ 1 := by nlinarith [hf j]
  have hj3 : f j ≤ ∑ i, f i := Finset.single_le_sum (fun i _ => hf i) (Finset.mem_univ j)
  rw [hv]
  exact max_le (by norm_num) (by linarith)

/-- `U^T σy U = det(U) σy` for every 2x2 matrix. -/
theorem sigmay_det (U : Op 2) : Uᵀ * sigmay * U = U.det • sigmay := by
  ext i j
  fin_cases i <;> fin_cases j <;> simp [sigmay, Matrix.mul_apply, Fin.sum_univ_two, det_fin_two] <;> ring

theorem kron_transpose {m n p q : ℕ} (A : Matrix (Fin m) (Fin n) ℂ) (B : Matrix (Fin p) (Fin q) ℂ) : (kron A B)ᵀ = kron Aᵀ Bᵀ := rfl

theorem kron_map {m n p q : ℕ} (A : Matrix (Fin m) (Fin n) ℂ) (B : Matrix (Fin p) (Fin q) ℂ) :
    (kron A B).map (starRingEnd ℂ) = kron (A.map (starRingEnd ℂ)) (B.map (starRingEnd ℂ)) := by
  ext i j; simp [kron]

theorem kron_conj {m n p q : ℕ} (A : Matrix (Fin m) (Fin n) ℂ) (B : Matrix (Fin p) (Fin q) ℂ) : (kron A B)ᴴ = kron Aᴴ Bᴴ := by
  ext i j; simp [kron]

/-- **C60 (local operations).** Unitaries on the two qubits do not change the concurrence. -/
theorem C60_local_unitary (U V : Op 2) (hU : Uᴴ * U = 1) (hV : Vᴴ * V = 1) (rho : Op 4) :
    concurrence (.mat ((kron U V : Op (2 * 2)) * rho * (kron U V : Op (2 * 2))ᴴ)) = concurrence (.mat rho) := by
  set W : Op 4 := (kron U V : Op (2 * 2)) with hW
  have hWW : Wᴴ * W = 1 := by
    have : (kron U V)ᴴ * kron U V = (1 : Op (2 * 2)) := by
      rw [kron_conj, kron_mul_kron, hU, hV, kron_one_one]
    exact this
  have hW' : W * Wᴴ = 1 := mul_eq_one_comm.mp hWW
  have hY : Wᵀ * SySy * W = (U.det * V.det) • SySy := by
    have : (kron U V)ᵀ * kron sigmay sigmay * kron U V = ((U.det * V.det) • kron sigmay sigmay : Op (2 * 2)) := by
      rw [kron_transpose, kron_mul_kron, kron_mul_kron, sigmay_det, sigmay_det]
      ext i j
      simp [kron]; ring
    exact this
  have hdet : ∀ X : Op 2, Xᴴ * X = 1 → (starRingEnd ℂ) X.det * X.det = 1 := by
    intro X hX
    have := congrArg det hX
    rwa [det_mul, det_conjTranspose, det_one] at this
  set z : ℂ := U.det * V.det with hz
  have hzz : (starRingEnd ℂ) z * z = 1 := by
    rw [hz, map_mul]
    linear_combination (starRingEnd ℂ) V.det * V.det * hdet U hU + hdet V hV
  have hYc : Wᴴ * SySy * W.map (starRingEnd ℂ) = (starRingEnd ℂ) z • SySy := by
    have := congrArg (fun X : Op 4 => X.map (starRingEnd ℂ)) hY
    simp only [map_star_mul, SySy_real] at this
    have e : (Wᵀ).map (starRingEnd ℂ) = Wᴴ := rfl
    rw [e] at this
    rw [this]
    ext i j
    have := congrFun (congrFun SySy_real i) j
    simp only [Matrix.map_apply] at this
    simp [this]
  have hR : concR (W * rho * Wᴴ) = W * (concR rho * Wᴴ) := by
    have e1 : (Wᴴ).map (starRingEnd ℂ) = Wᵀ := by ext i j; simp
    have e2 : Wᵀ * SySy = z • (SySy * Wᴴ) := by
      calc Wᵀ * SySy = Wᵀ * SySy * (W * Wᴴ) := by rw [hW', Matrix.mul_one]
        _ = Wᵀ * SySy * W * Wᴴ := by simp only [Matrix.mul_assoc]
        _ = _ := by rw [hY, Matrix.smul_mul]
    rw [concR, map_star_mul, map_star_mul, e1]
    calc W * rho * Wᴴ * (SySy * (W.map (starRingEnd ℂ) * rho.map (starRingEnd ℂ) * Wᵀ) * SySy)
        = W * rho * (Wᴴ * SySy * W.map (starRingEnd ℂ)) * rho.map (starRingEnd ℂ) * (Wᵀ * SySy) := by simp only [Matrix.mul_assoc]
      _ = ((starRingEnd ℂ) z * z) • (W * rho * SySy * rho.map (starRingEnd ℂ) * (SySy * Wᴴ)) := by
          rw [hYc, e2]
          simp only [Matrix.mul_smul, Matrix.smul_mul, smul_smul]
          rw [mul_comm z]
      _ = _ := by
          rw [hzz, one_smul, concR]
          simp only [Matrix.mul_assoc]
  have hchar : (concR (W * rho * Wᴴ)).charpoly = (concR rho).charpoly := by
    rw [hR, charpoly_mul_comm, Matrix.mul_assoc, hWW, Matrix.mul_one]
  simp only [concurrence, sortedEigenvalues, QState.asMat]
  rw [hchar]

/-- **C60 (mixtures).** The concurrence of a mixture of (unnormalised) kets is at most the sum of their concurrences. -/
theorem C60_mixture {n : ℕ} (w : Fin n → Ket 4) :
    concurrence (.mat (∑ i, outerProd (w i))) ≤ ∑ i, concurrence (.ket (w i)) := by
  set W : Matrix (Fin 4) (Fin n) ℂ := Matrix.of fun a i => w i a 0 with hW
  have hWW : ∑ i, outerProd (w i) = W * Wᴴ := by
    ext a b
    rw [Matrix.sum_apply, Matrix.mul_apply]
    refine Finset.sum_congr rfl fun i _ => ?_
    simp [outerProd, hc, Matrix.mul_apply, hW]
  have hdiag : ∀ i, concurrence (.ket (w i)) = ‖tau W i i‖ := by
    intro i
    have : tau W i i = tau (w i) 0 0 := by
      simp [tau, Matrix.mul_apply, hW]
    rw [this, tau_ket, C60_pure]
    simp [norm_sub_rev]
  have hpos : (W * Wᴴ).PosSemidef := posSemidef_self_mul_conjTranspose W
  obtain ⟨f, hf, hc⟩ := concR_pos hpos
  obtain ⟨j, -, hv⟩ := concurrence_of_charpoly (.mat (W * Wᴴ)) f hf hc
  rw [hWW, hv]
  simp only [hdiag]
  have hsum : ∑ i, f i = traceNorm (tau W) := by
    rw [← concR_sum, hc, roots_of_prod, Multiset.map_map]
    change _ = ∑ i, Real.sqrt ‖((f i ^ 2 : ℝ) : ℂ)‖
    refine Finset.sum_congr rfl fun i _ => ?_
    rw [Complex.norm_real, Real.norm_of_nonneg (sq_nonneg _), Real.sqrt_sq (hf i)]
  have h0 : 0 ≤ ∑ i, ‖tau W i i‖ := Finset.sum_nonneg fun i _ => norm_nonneg _
  refine max_le h0 ?_
  rcases (hf j).eq_or_lt with hj | hj
  · rw [← hj, hsum]
    have := traceNorm_nonneg (tau W)
    linarith
  · rw [hsum]
    refine takagi_diag (tau_symm W) (f j) hj (concR_root W _ (by exact_mod_cast (pow_pos hj 2).ne') ?_)
    rw [hc, Polynomial.eval_prod]
    exact Finset.prod_eq_zero (Finset.mem_univ j) (by simp)

/-- **C60 (separable states).** Every mixture of product states has concurrence zero. -/
theorem C60_separable {n : ℕ} (p : Fin n → ℝ) (hp : ∀ i, 0 ≤ p i) (a b : Fin n → Op 2) (ha : ∀ i, (a i).PosSemidef)
    (hb : ∀ i, (b i).PosSemidef) : concurrence (.mat (∑ i, (p i : ℂ) • (kron (a i) (b i) : Op (2 * 2)) : Op (2 * 2))) = 0 := by
  choose A hA using fun i => posSemidef_factor (ha i)
  choose B hB using fun i => posSemidef_factor (hb i)
  -- every product of positive matrices is a sum of four product kets
  let ka : Fin n → Fin 2 → Ket 2 := fun i s => Matrix.of fun r _ => (A i)ᴴ r s
  let kb : Fin n → Fin 2 → Ket 2 := fun i s => Matrix.of fun r _ => (B i)ᴴ r s
  let w : Fin n × Fin 2 × Fin 2 → Ket 4 := fun q =>
    (((Real.sqrt (p q.1) : ℝ) : ℂ) • (kron (ka q.1 q.2.1) (kb q.1 q.2.2) : Matrix (Fin (2 * 2)) (Fin (1 * 1)) ℂ))
  have hw : ∀ q, concurrence (.ket (w q)) = 0 := by
    intro q
    rw [C60_pure_product]
    refine ⟨((Real.sqrt (p q.1) : ℝ) : ℂ) • ka q.1 q.2.1, kb q.1 q.2.2, ?_⟩
    ext i j
    simp only [w, kron, Matrix.smul_apply, Matrix.of_apply, smul_eq_mul]
    ring
  have hsum : (∑ i, (p i : ℂ) • (kron (a i) (b i) : Op (2 * 2)) : Op (2 * 2)) = ∑ q, outerProd (w q) := by
    rw [Fintype.sum_prod_type]
    refine Finset.sum_congr rfl fun i _ => ?_
    ext x y
    rw [Matrix.sum_apply]
    have hsq : ((Real.sqrt (p i) : ℝ) : ℂ) * ((Real.sqrt (p i) : ℝ) : ℂ) = (p i : ℂ) := by
      rw [← Complex.ofReal_mul, Real.mul_self_sqrt (hp i)]
    have ho : ∀ q, (outerProd (w q) none) x y = w q x 0 * (starRingEnd ℂ) (w q y 0) := by
      intro q
      simp [outerProd, hc, Matrix.mul_apply]
    refine Eq.trans ?_ (Finset.sum_congr rfl fun q _ => (ho (i, q)).symm)
    rw [hA i, hB i, Fintype.sum_prod_type]
    simp only [w, ka, kb, kron, Matrix.smul_apply, Matrix.of_apply, smul_eq_mul, Matrix.mul_apply, conjTranspose_apply, RCLike.star_def,
      map_mul, Complex.conj_conj, Complex.conj_ofReal, Fin.sum_univ_two]
    rw [← hsq]
    ring
  let e := (Fintype.equivFin (Fin n × Fin 2 × Fin 2)).symm
  have hre : ∑ q, outerProd (w q) = ∑ i, outerProd (w (e i)) := (Equiv.sum_comp e fun q => outerProd (w q)).symm
  refine le_antisymm ?_ (le_max_left _ _)
  have := C60_mixture fun i => w (e i)
  rw [← hre, ← hsum] at this
  refine this.trans ?_
  rw [Finset.sum_eq_zero fun i _ => hw (e i)]

/-- An equal mixture of `|00>` and `|11>` is not entangled, their superposition is. -/
example : concurrence (.mat (∑ i : Fin 2, ((1 / 2 : ℝ) : ℂ) • (kron (outerProd (basis 2 i)) (outerProd (basis 2 i)) : Op (2 * 2)) :
    Op (2 * 2))) = 0 ∧ concurrence (.ket (((Real.sqrt (1 / 2) : ℝ) : ℂ) • (!![1; 0; 0; 1] : Ket 4))) = 1 := by
  constructor
  · exact C60_separable (fun _ => 1 / 2) (fun _ => by norm_num) _ _ (fun i => outerProd_pos _) (fun i => outerProd_pos _)
  · rw [C60_pure]
    have h : Real.sqrt (1 / 2) * Real.sqrt (1 / 2) = 1 / 2 := Real.mul_self_sqrt (by norm_num)
    simp only [Matrix.smul_apply, smul_eq_mul]
    simp only [Matrix.of_apply, cons_val', cons_val_zero, cons_val_fin_one, cons_val, cons_val_one, mul_one, mul_zero, sub_zero]
    rw [← Complex.ofReal_mul, h, Complex.norm_real]
    norm_num

/-- **C60 (Bell states).** The four Bell states of the library have concurrence one, as kets and as density matrices. -/
theorem C60_bell (bs : String) (k : Ket 4) (h : bellState bs = some k) :
    concurrence (.ket k) = 1 ∧ concurrence (.mat (outerProd k)) = 1 := by
  rw [C60_ket_density]
  refine (and_self_iff.mpr ?_)
  rw [C60_pure]
  have h2 : ((Real.sqrt 2 : ℝ) : ℂ) * ((Real.sqrt 2 : ℝ) : ℂ) = 2 := by
    rw [← Complex.ofReal_mul, Real.mul_self_sqrt (by norm_num)]; simp
  have h3 : ‖(1 / ((Real.sqrt 2 : ℝ) : ℂ)) * (1 / ((Real.sqrt 2 : ℝ) : ℂ))‖ = 1 / 2 := by
    rw [div_mul_div_comm, h2]; simp
  unfold bellState at h
  simp only at h
  split_ifs at h <;> simp only [Option.some.injEq] at h <;> subst h <;>
    simp only [Matrix.smul_apply, smul_eq_mul, Matrix.of_apply, cons_val', cons_val_zero, cons_val_fin_one, cons_val, cons_val_one,
      mul_one, mul_zero, sub_zero, zero_sub, mul_neg, norm_neg] <;> (try rw [h3]) <;> (try norm_num)

example : ∃ k, bellState "Psi-" = some k ∧ concurrence (.ket k) = 1 := by
  have : bellState "Psi-" = some ((1 / ((Real.sqrt 2 : ℝ) : ℂ)) • (!![0; 1; -1; 0] : Ket 4)) := by
    simp [bellState]
  exact ⟨_, this, (C60_bell _ _ this).1⟩

/-- **C60 (sorting).** For a Hermitian matrix `sortedEigens` returns its `d` real eigenvalues, each as often as it occurs, in
ascending order. -/
theorem C60_sorted {d : ℕ} (M : Op d) (h : M.IsHermitian) : ∃ l : List ℝ, sortedEigenvalues M = l.map (fun r : ℝ => (r : ℂ)) ∧
    l.Pairwise (· ≤ ·) ∧ (l : Multiset ℝ) = Finset.univ.val.map h.eigenvalues := by
  have hr : M.charpoly.roots = Finset.univ.val.map fun i => ((h.eigenvalues i : ℝ) : ℂ) := by
    rw [h.charpoly_eq]; exact roots_of_prod _
  have hperm : (sortedEigenvalues M : Multiset ℂ) = Finset.univ.val.map fun i => ((h.eigenvalues i : ℝ) : ℂ) := by
    rw [sortedEigenvalues, Multiset.sort_eq, hr]
  have hreal : ∀ v ∈ sortedEigenvalues M, ((v.re : ℝ) : ℂ) = v := by
    intro v hv
    have : v ∈ (sortedEigenvalues M : Multiset ℂ) := hv
    rw [hperm, Multiset.mem_map] at this
    obtain ⟨i, -, rfl⟩ := this
    rfl
  refine ⟨(sortedEigenvalues M).map Complex.re, ?_, ?_, ?_⟩
  · rw [List.map_map]
    conv_lhs => rw [← List.map_id (sortedEigenvalues M)]
    exact List.map_congr_left fun v hv => (hreal v hv).symm
  · rw [List.pairwise_map]
    refine (Multiset.pairwise_sort _ _).imp ?_
    rintro a b (hab | ⟨hab, -⟩)
    · exact hab.le
    · exact hab.le
  · rw [← Multiset.map_coe, hperm, Multiset.map_map]
    rfl

end Verif.Toolbox
