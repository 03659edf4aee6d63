import Verif.Toolbox.Concurrence

/-!
# C64: `standardDev`, `spectralNorm`, `_expectationColArr`
-/
namespace Verif.Toolbox
open Matrix
open scoped ComplexOrder

/-! ## Model -/

/-- `standardDev` (`functions.py:450-453`) with `expect=False` (with `expect=True` the mean is returned too): the square root of the variance (`np.sqrt`, principal branch).
Simplification: `np.sqrt` of a negative real number is NaN in NumPy. -/
noncomputable def standardDev {d : ℕ} (op : Op d) (s : QState d) : ℂ := variance op s ^ (1 / 2 : ℂ)

/-- `max` of a list of NumPy complex numbers; they are compared like in sorting. -/
noncomputable def maxLex : List ℂ → Option ℂ
  | [] => none
  | v :: vs => some (vs.foldl (fun acc w => if lexLe w acc then acc else w) v)

/-- `spectralNorm` (`functions.py:455-457`): the square root of the largest eigenvalue of `hc(operator) @ operator`, and all of them.
`none`: ValueError of `max` for a matrix without columns. -/
noncomputable def spectralNorm {m n : ℕ} (A : Matrix (Fin m) (Fin n) ℂ) : Option (ℝ × List ℂ) :=
  let vals := sortedEigenvalues (hc A * A)
  (maxLex vals).map fun v => (Real.sqrt v.re, vals)

/-- `_expectationColArr` (`functions.py:411-448`). -/
def expectationColArr {d n : ℕ} (op : Op d) (states : Matrix (Fin d) (Fin n) ℂ) : Fin n → ℂ := (hc states * op * states).diag

/-! ## Spectral norm -/

theorem foldl_lex (vs : List ℂ) (v : ℂ) : let m := vs.foldl (fun acc w => if lexLe w acc then acc else w) v
    (m = v ∨ m ∈ vs) ∧ lexLe v m ∧ ∀ w ∈ vs, lexLe w m := by
  induction vs generalizing v with
  | nil => exact ⟨.inl rfl, (Std.Total.total (r := lexLe) v v).elim id id, by simp⟩
  | cons a vs ih =>
    simp only [List.foldl_cons]
    by_cases h : lexLe a v
    · rw [if_pos h]
      obtain ⟨h1, h2, h3⟩ := ih v
      refine ⟨?_, h2, ?_⟩
      · rcases h1 with h1 | h1
        · exact .inl h1
        · exact .inr (List.mem_cons_of_mem _ h1)
      · intro w hw
        rcases List.mem_cons.mp hw with rfl | hw
        · exact IsTrans.trans _ _ _ h h2
        · exact h3 w hw
    · rw [if_neg h]
      obtain ⟨h1, h2, h3⟩ := ih a
      have hva : lexLe v a := (Std.Total.total (r := lexLe) a v).resolve_left h
      refine ⟨?_, IsTrans.trans _ _ _ hva h2, ?_⟩
      · rcases h1 with h1 | h1
        · exact .inr (by rw [h1]; exact List.mem_cons_self)
        · exact .inr (List.mem_cons_of_mem _ h1)
      · intro w hw
        rcases List.mem_cons.mp hw with rfl | hw
        · exact h2
        · exact h3 w hw

theorem maxLex_spec {l : List ℂ} {m : ℂ} (h : maxLex l = some m) : m ∈ l ∧ ∀ v ∈ l, lexLe v m := by
  cases l with
  | nil => simp [maxLex] at h
  | cons v vs =>
    simp only [maxLex, Option.some.injEq] at h
    obtain ⟨h1, h2, h3⟩ := foldl_lex vs v
    rw [h] at h1 h2 h3
    refine ⟨by rcases h1 with h1 | h1 <;> simp [h1], ?_⟩
    intro w hw
    rcases List.mem_cons.mp hw with rfl | hw
    · exact h2
    · exact h3 w hw

theorem ketNorm_eq {n : ℕ} (k : Ket n) : ketNorm k = Real.sqrt (frobSq k) := by
  rw [ketNorm]
  congr 1
  rw [innerProd_self, Complex.ofReal_re, frobSq]
  refine Finset.sum_congr rfl fun i _ => ?_
  simp

theorem frobSq_ket_mul {m n : ℕ} (A : Matrix (Fin m) (Fin n) ℂ) (k : Ket n) :
    ((frobSq (A * k) : ℝ) : ℂ) = (kᴴ * (Aᴴ * A) * k).trace := by
  rw [← trace_conjTranspose_mul, conjTranspose_mul]
  simp only [Matrix.mul_assoc]

/-- The largest eigenvalue is used, and it belongs to an eigenvector. -/
theorem spectralNorm_eigen {m n : ℕ} (A : Matrix (Fin m) (Fin n) ℂ) (s : ℝ) (vals : List ℂ) (h : spectralNorm A = some (s, vals)) :
    0 ≤ s ∧ (((s ^ 2 : ℝ) : ℂ) • (1 : Op n) - Aᴴ * A).PosSemidef ∧ ∃ k : Ket n, IsUnit k ∧ Aᴴ * A * k = ((s ^ 2 : ℝ) : ℂ) • k := by
  have hp := posSemidef_conjTranspose_mul_self A
  rw [spectralNorm] at h
  simp only [Option.map_eq_some_iff, Prod.mk.injEq] at h
  obtain ⟨v, hv, hs, -⟩ := h
  obtain ⟨hmem, hmax⟩ := maxLex_spec hv
  have hAA : hc A * A = Aᴴ * A := rfl
  rw [hAA] at hmem hmax
  have hroots : ∀ w, w ∈ sortedEigenvalues (Aᴴ * A) ↔ ∃ i, ((hp.isHermitian.eigenvalues i : ℝ) : ℂ) = w := by
    intro w
    have : (w ∈ sortedEigenvalues (Aᴴ * A)) ↔ w ∈ (Aᴴ * A).charpoly.roots := by
      rw [sortedEigenvalues, Multiset.mem_sort]
    rw [this, hp.isHermitian.charpoly_eq]
    have e : (∏ i, (Polynomial.X - Polynomial.C ((hp.isHermitian.eigenvalues i : ℝ) : ℂ))).roots =
      Finset.univ.val.map fun i => ((hp.isHermitian.eigenvalues i : ℝ) : ℂ) := roots_of_prod _
    change w ∈ (∏ i, (Polynomial.X - Polynomial.C ((hp.isHermitian.eigenvalues i : ℝ) : ℂ))).roots ↔ _
    rw [e]
    simp
  obtain ⟨j, hj⟩ := (hroots v).mp hmem
  have hvre : v.re = hp.isHermitian.eigenvalues j := by rw [← hj, Complex.ofReal_re]
  have hs2 : s ^ 2 = hp.isHermitian.eigenvalues j := by
    rw [← hs, hvre, Real.sq_sqrt (hp.eigenvalues_nonneg j)]
  have hle : ∀ i, hp.isHermitian.eigenvalues i ≤ s ^ 2 := by
    intro i
    have := hmax _ ((hroots _).mpr ⟨i, rfl⟩)
    rw [hs2, ← hvre]
    rcases this with h | ⟨h, -⟩
    · simpa using h.le
    · simpa using h.le
  obtain ⟨U, u1, u2, u3⟩ := exists_diag hp.isHermitian
  refine ⟨by rw [← hs]; exact Real.sqrt_nonneg _, ?_, ?_⟩
  · have e : ((s ^ 2 : ℝ) : ℂ) • (1 : Op n) - Aᴴ * A =
        U * diagonal (fun i => ((s ^ 2 - hp.isHermitian.eigenvalues i : ℝ) : ℂ)) * Uᴴ := by
      have e1 : diagonal (fun i => ((s ^ 2 - hp.isHermitian.eigenvalues i : ℝ) : ℂ)) =
          ((s ^ 2 : ℝ) : ℂ) • (1 : Op n) - diagonal fun i => ((hp.isHermitian.eigenvalues i : ℝ) : ℂ) := by
        ext a b
        by_cases hab : a = b
        · subst hab; simp
        · simp [hab]
      rw [e1, Matrix.mul_sub, Matrix.sub_mul, ← u3, Matrix.mul_smul, Matrix.mul_one, Matrix.smul_mul, u2]
    rw [e]
    refine (PosSemidef.diagonal (n := Fin n) (d := fun i => ((s ^ 2 - hp.isHermitian.eigenvalues i : ℝ) : ℂ)) ?_).mul_mul_conjTranspose_same U
    intro i
    have := hle i
    exact Complex.zero_le_real.mpr (by linarith)
  · refine ⟨Matrix.of fun a _ => U a j, ?_, ?_⟩
    · have := congrFun (congrFun u1 j) j
      simp only [Matrix.mul_apply, conjTranspose_apply, one_apply_eq] at this
      have h2 : ((∑ a, ‖U a j‖ ^ 2 : ℝ) : ℂ) = 1 := by
        rw [← this]
        push_cast
        refine Finset.sum_congr rfl fun a _ => ?_
        rw [RCLike.star_def, mul_comm, Complex.mul_conj']
      simp only [IsUnit, Matrix.of_apply]
      exact_mod_cast h2
    · have h1 : Aᴴ * A * U = U * diagonal (fun i => ((hp.isHermitian.eigenvalues i : ℝ) : ℂ)) := by
        conv_lhs => rw [u3]
        rw [Matrix.mul_assoc, u1, Matrix.mul_one]
      ext a b
      have := congrFun (congrFun h1 a) j
      rw [Matrix.mul_diagonal] at this
      simp only [Matrix.mul_apply, Matrix.smul_apply, Matrix.of_apply, smul_eq_mul] at this ⊢
      rw [hs2, this, mul_comm]

theorem spectralNorm_isSome {m n : ℕ} (A : Matrix (Fin m) (Fin n) ℂ) (hn : 0 < n) : ∃ s vals, spectralNorm A = some (s, vals) := by
  have hlen : (sortedEigenvalues (hc A * A)).length = n := by
    have : (hc A * A).charpoly.roots.card = n := by
      have h := (isHermitian_conjTranspose_mul_self A).charpoly_eq
      have e : (Aᴴ * A).charpoly.roots = _ := (congrArg Polynomial.roots h).trans (roots_of_prod _)
      have := congrArg Multiset.card e
      change (Aᴴ * A).charpoly.roots.card = n
      simpa using this
    rw [sortedEigenvalues, Multiset.length_sort, this]
  match hl : sortedEigenvalues (hc A * A) with
  | [] => rw [hl] at hlen; simp at hlen; omega
  | v :: vs =>
    rw [spectralNorm]
    simp only [hl, maxLex, Option.map_some]
    exact ⟨_, _, rfl⟩

/-- **C64 (spectral norm).** `spectralNorm(A)` is the smallest number `s` with `norm(A k) <= s norm(k)` for all kets `k`, and there is
a unit ket for which equality holds. -/
theorem C64_norm {m n : ℕ} (A : Matrix (Fin m) (Fin n) ℂ) (s : ℝ) (vals : List ℂ) (h : spectralNorm A = some (s, vals)) :
    (∀ k : Ket n, ketNorm (A * k) ≤ s * ketNorm k) ∧ ∃ k : Ket n, IsUnit k ∧ ketNorm (A * k) = s := by
  obtain ⟨h0, hpos, k, hk, hAk⟩ := spectralNorm_eigen A s vals h
  constructor
  · intro k
    rw [ketNorm_eq, ketNorm_eq]
    have h1 : frobSq (A * k) ≤ s ^ 2 * frobSq k := by
      have h2 : (0 : ℂ) ≤ (kᴴ * (((s ^ 2 : ℝ) : ℂ) • (1 : Op n) - Aᴴ * A) * k).trace := (hpos.conjTranspose_mul_mul_same k).trace_nonneg
      have h3 : (kᴴ * (((s ^ 2 : ℝ) : ℂ) • (1 : Op n) - Aᴴ * A) * k).trace = ((s ^ 2 * frobSq k - frobSq (A * k) : ℝ) : ℂ) := by
        rw [Matrix.mul_sub, Matrix.sub_mul, trace_sub, ← frobSq_ket_mul, Matrix.mul_smul, Matrix.smul_mul, Matrix.mul_one, trace_smul,
          trace_conjTranspose_mul, smul_eq_mul]
        push_cast; ring
      rw [h3] at h2
      have := Complex.zero_le_real.mp h2
      linarith
    calc Real.sqrt (frobSq (A * k)) ≤ Real.sqrt (s ^ 2 * frobSq k) := Real.sqrt_le_sqrt h1
      _ = s * Real.sqrt (frobSq k) := by rw [Real.sqrt_mul (sq_nonneg s), Real.sqrt_sq h0]
  · refine ⟨k, hk, ?_⟩
    have h1 : frobSq (A * k) = s ^ 2 := by
      have h2 := frobSq_ket_mul A k
      rw [Matrix.mul_assoc, hAk, Matrix.mul_smul, trace_smul, trace_conjTranspose_mul] at h2
      have h3 : frobSq k = 1 := by
        simp only [frobSq, Finset.univ_unique, Fin.default_eq_zero, Finset.sum_singleton]
        exact hk
      rw [h3] at h2
      simp only [smul_eq_mul, Complex.ofReal_one, mul_one] at h2
      exact_mod_cast h2
    rw [ketNorm_eq, h1, Real.sqrt_sq h0]

/-- **C64 (spectral norm).** The two properties of `C64_norm` determine the number. -/
theorem C64_norm_unique {m n : ℕ} (A : Matrix (Fin m) (Fin n) ℂ) (s : ℝ) (vals : List ℂ) (h : spectralNorm A = some (s, vals)) (r : ℝ)
    (h1 : ∀ k : Ket n, ketNorm (A * k) ≤ r * ketNorm k) (h2 : ∃ k : Ket n, IsUnit k ∧ ketNorm (A * k) = r) : r = s := by
  have hu : ∀ k : Ket n, IsUnit k → ketNorm k = 1 := by
    intro k hk
    rw [ketNorm_eq]
    have h3 : frobSq k = 1 := by
      simp only [frobSq, Finset.univ_unique, Fin.default_eq_zero, Finset.sum_singleton]
      exact hk
    rw [h3, Real.sqrt_one]
  obtain ⟨g1, k, hk, g2⟩ := C64_norm A s vals h
  obtain ⟨k', hk', h2⟩ := h2
  have a := g1 k'
  have b := h1 k
  rw [hu k' hk', h2] at a
  rw [hu k hk, g2] at b
  linarith

theorem ketNorm_nonneg {n : ℕ} (k : Ket n) : 0 ≤ ketNorm k := Real.sqrt_nonneg _

theorem ketNorm_unit {n : ℕ} (k : Ket n) (hk : IsUnit k) : ketNorm k = 1 := by
  rw [ketNorm_eq]
  have h3 : frobSq k = 1 := by
    simp only [frobSq, Finset.univ_unique, Fin.default_eq_zero, Finset.sum_singleton]
    exact hk
  rw [h3, Real.sqrt_one]

theorem ketNorm_add {n : ℕ} (a b : Ket n) : ketNorm (a + b) ≤ ketNorm a + ketNorm b := by
  have e : ∀ k : Ket n, ketNorm k = ‖(WithLp.toLp 2 fun i => k i 0 : EuclideanSpace ℂ (Fin n))‖ := by
    intro k
    rw [ketNorm_eq, EuclideanSpace.norm_eq, frobSq]
    congr 1
    refine Finset.sum_congr rfl fun i _ => ?_
    simp
  rw [e, e, e]
  exact norm_add_le (WithLp.toLp 2 fun i => a i 0 : EuclideanSpace ℂ (Fin n)) (WithLp.toLp 2 fun i => b i 0)

/-- **C64 (spectral norm).** It is submultiplicative and satisfies the triangle inequality. -/
theorem C64_norm_laws {l m n : ℕ} (A : Matrix (Fin l) (Fin m) ℂ) (B : Matrix (Fin m) (Fin n) ℂ) (C : Matrix (Fin m) (Fin n) ℂ)
    (a b c ab bc : ℝ) (va vb vc vab vbc : List ℂ) (ha : spectralNorm A = some (a, va)) (hb : spectralNorm B = some (b, vb))
    (hc' : spectralNorm C = some (c, vc)) (hab : spectralNorm (A * B) = some (ab, vab)) (hbc : spectralNorm (B + C) = some (bc, vbc)) :
    ab ≤ a * b ∧ bc ≤ b + c := by
  constructor
  · obtain ⟨k, hk, h⟩ := (C64_norm _ _ _ hab).2
    have h1 := (C64_norm _ _ _ ha).1 (B * k)
    have h2 := (C64_norm _ _ _ hb).1 k
    rw [ketNorm_unit k hk, mul_one] at h2
    rw [Matrix.mul_assoc] at h
    rw [h] at h1
    have h0 := (spectralNorm_eigen A a va ha).1
    exact h1.trans (mul_le_mul_of_nonneg_left h2 h0)
  · obtain ⟨k, hk, h⟩ := (C64_norm _ _ _ hbc).2
    have h1 := (C64_norm _ _ _ hb).1 k
    have h2 := (C64_norm _ _ _ hc').1 k
    rw [ketNorm_unit k hk, mul_one] at h1 h2
    rw [Matrix.add_mul] at h
    have := ketNorm_add (B * k) (C * k)
    linarith

/-- **C64 (spectral norm).** Unitary matrices have norm one; unitaries from the left change nothing. -/
theorem C64_norm_unitary {n : ℕ} (U A : Op n) (hU : hc U * U = 1) : spectralNorm (U * A) = spectralNorm A ∧
    ∀ s vals, spectralNorm U = some (s, vals) → s = 1 := by
  have e : hc (U * A) * (U * A) = hc A * A := by
    have : hc (U * A) = hc A * hc U := conjTranspose_mul U A
    rw [this, Matrix.mul_assoc, ← Matrix.mul_assoc (hc U), hU, Matrix.one_mul]
  refine ⟨by rw [spectralNorm, spectralNorm, e], ?_⟩
  intro s vals h
  obtain ⟨k, hk, hs⟩ := (C64_norm _ _ _ h).2
  have h1 : ketNorm (U * k) = ketNorm k := by
    rw [ketNorm, ketNorm, innerProd, innerProd]
    have : hc (U * k) * (U * k) = hc k * k := by
      have : hc (U * k) = hc k * hc U := conjTranspose_mul U k
      rw [this, Matrix.mul_assoc, ← Matrix.mul_assoc (hc U), hU, Matrix.one_mul]
    simp only [Option.getD_none, this]
  rw [h1, ketNorm_unit k hk] at hs
  exact hs.symm

/-- **C64 (spectral norm).** Unitaries from the right change nothing either. -/
theorem C64_norm_unitary_right {m n : ℕ} (A : Matrix (Fin m) (Fin n) ℂ) (U : Op n) (hU : hc U * U = 1) :
    spectralNorm (A * U) = spectralNorm A := by
  have hU' : U * hc U = 1 := mul_eq_one_comm.mp hU
  have e : hc (A * U) * (A * U) = hc U * (hc A * A) * U := by
    have : hc (A * U) = hc U * hc A := conjTranspose_mul A U
    rw [this]; simp only [Matrix.mul_assoc]
  have hc' : (hc U * (hc A * A) * U).charpoly = (hc A * A).charpoly := by
    rw [Matrix.mul_assoc, Matrix.charpoly_mul_comm, Matrix.mul_assoc, hU', Matrix.mul_one]
  rw [spectralNorm, spectralNorm, e]
  simp only [sortedEigenvalues, hc']

example : ∀ s vals, spectralNorm sigmay = some (s, vals) → s = 1 := by
  refine (C64_norm_unitary sigmay 0 ?_).2
  ext i j
  fin_cases i <;> fin_cases j <;> simp [hc, sigmay, Matrix.mul_apply, Fin.sum_univ_two]

example (A : Matrix (Fin 3) (Fin 2) ℂ) : spectralNorm (A * sigmay) = spectralNorm A := by
  refine C64_norm_unitary_right A sigmay ?_
  ext i j
  fin_cases i <;> fin_cases j <;> simp [hc, sigmay, Matrix.mul_apply, Fin.sum_univ_two]

/-! ## Standard deviation -/

section
variable {d : ℕ}

theorem cpow_half (r : ℝ) (hr : 0 ≤ r) : ((r : ℂ)) ^ (1 / 2 : ℂ) = ((Real.sqrt r : ℝ) : ℂ) := by
  rw [Real.sqrt_eq_rpow, Complex.ofReal_cpow hr]
  norm_num

/-- the mean of a Hermitian operator is real -/
theorem expectation_mean (op : Op d) (s : QState d) (hop : hc op = op) (hs : IsDensity s.asMat) :
    ∃ m : ℝ, expectation op s = (m : ℂ) ∧ (op * s.asMat).trace = (m : ℂ) := by
  have hs' : hc s.asMat = s.asMat := hs.pos.isHermitian.eq
  obtain ⟨e1, i1⟩ := C46_expectation_real op s hop hs'
  refine ⟨(expectation op s).re, Complex.ext rfl (by rw [i1, Complex.ofReal_im]), ?_⟩
  have : expectation op s = (((expectation op s).re : ℝ) : ℂ) := Complex.ext rfl (by rw [i1, Complex.ofReal_im])
  rw [← this, e1]; rfl

/-- The standard deviation as a Frobenius norm. -/
theorem std_frob (op : Op d) (s : QState d) (hop : hc op = op) (hs : IsDensity s.asMat) (B : Op d) (hB : s.asMat = Bᴴ * B) (m : ℝ)
    (hm : expectation op s = (m : ℂ)) : standardDev op s = ((Real.sqrt (frobSq ((op - (m : ℂ) • 1) * Bᴴ)) : ℝ) : ℂ) := by
  have hs' : hc s.asMat = s.asMat := hs.pos.isHermitian.eq
  have hop' : opᴴ = op := hop
  have hop2 : hc (op * op) = op * op := by rw [hc_eq, conjTranspose_mul, hop']
  obtain ⟨m', e, et⟩ := expectation_mean op s hop hs
  have hmm : m' = m := Complex.ofReal_injective (e.symm.trans hm)
  subst hmm
  obtain ⟨e2, -⟩ := C46_expectation_real (op * op) s hop2 hs'
  have key : variance op s = ((op - (m' : ℂ) • 1) * (op - (m' : ℂ) • 1) * s.asMat).trace := by
    rw [variance, hm, e2, expectationRaw]
    simp only [Matrix.sub_mul, Matrix.mul_sub, Matrix.smul_mul, Matrix.mul_smul, Matrix.one_mul, Matrix.mul_one,
      Matrix.trace_sub, Matrix.trace_smul, hs.tr, et, smul_eq_mul]
    ring
  have hh : (op - (m' : ℂ) • (1 : Op d))ᴴ = op - (m' : ℂ) • 1 := by
    simp [conjTranspose_sub, conjTranspose_smul, hop']
  have hv : variance op s = ((frobSq ((op - (m' : ℂ) • 1) * Bᴴ) : ℝ) : ℂ) := by
    rw [key, ← trace_conjTranspose_mul, conjTranspose_mul, conjTranspose_conjTranspose, hh, hB]
    calc ((op - (m' : ℂ) • 1) * (op - (m' : ℂ) • 1) * (Bᴴ * B)).trace
        = (((op - (m' : ℂ) • 1) * (op - (m' : ℂ) • 1) * Bᴴ) * B).trace := by simp only [Matrix.mul_assoc]
      _ = _ := by rw [trace_mul_comm]; simp only [Matrix.mul_assoc]
  rw [standardDev, hv, cpow_half _ (frobSq_nonneg _)]

theorem trace_cauchy {m n : ℕ} (F G : Matrix (Fin m) (Fin n) ℂ) : ‖(Fᴴ * G).trace‖ ≤ Real.sqrt (frobSq F) * Real.sqrt (frobSq G) := by
  have e : (Fᴴ * G).trace = ∑ p : Fin m × Fin n, (starRingEnd ℂ) (F p.1 p.2) * G p.1 p.2 := by
    rw [Fintype.sum_prod_type, Finset.sum_comm]
    simp [trace, Matrix.mul_apply]
  have h1 : ‖(Fᴴ * G).trace‖ ≤ ∑ p : Fin m × Fin n, ‖F p.1 p.2‖ * ‖G p.1 p.2‖ := by
    rw [e]
    refine (norm_sum_le _ _).trans (le_of_eq ?_)
    refine Finset.sum_congr rfl fun p _ => ?_
    rw [norm_mul, RCLike.norm_conj]
  have h2 := Finset.sum_mul_sq_le_sq_mul_sq Finset.univ (fun p : Fin m × Fin n => ‖F p.1 p.2‖) (fun p => ‖G p.1 p.2‖)
  have e1 : ∑ p : Fin m × Fin n, ‖F p.1 p.2‖ ^ 2 = frobSq F := by rw [Fintype.sum_prod_type]; rfl
  have e2 : ∑ p : Fin m × Fin n, ‖G p.1 p.2‖ ^ 2 = frobSq G := by rw [Fintype.sum_prod_type]; rfl
  rw [e1, e2] at h2
  rw [← Real.sqrt_mul (frobSq_nonneg F)]
  exact h1.trans (Real.le_sqrt_of_sq_le h2)

/-- **C64 (uncertainty relation).** For Hermitian operators and every state the product of the standard deviations is at least half the
modulus of the mean of the commutator. -/
theorem C64_uncertainty (A B : Op d) (hA : hc A = A) (hB : hc B = B) (s : QState d) (hs : IsDensity s.asMat) :
    ∃ a b : ℝ, standardDev A s = (a : ℂ) ∧ standardDev B s = (b : ℂ) ∧ 0 ≤ a ∧ 0 ≤ b ∧
      1 / 2 * ‖expectationRaw (A * B - B * A) s‖ ≤ a * b := by
  obtain ⟨C, hC⟩ := posSemidef_factor hs.pos
  obtain ⟨m, hm, hmt⟩ := expectation_mean A s hA hs
  obtain ⟨n, hn, hnt⟩ := expectation_mean B s hB hs
  refine ⟨_, _, std_frob A s hA hs C hC m hm, std_frob B s hB hs C hC n hn, Real.sqrt_nonneg _, Real.sqrt_nonneg _, ?_⟩
  set F := (A - (m : ℂ) • 1) * Cᴴ with hF
  set G := (B - (n : ℂ) • 1) * Cᴴ with hG
  have hh : (A - (m : ℂ) • (1 : Op d))ᴴ = A - (m : ℂ) • 1 := by
    have : Aᴴ = A := hA
    simp [conjTranspose_sub, conjTranspose_smul, this]
  have hk : (B - (n : ℂ) • (1 : Op d))ᴴ = B - (n : ℂ) • 1 := by
    have : Bᴴ = B := hB
    simp [conjTranspose_sub, conjTranspose_smul, this]
  have tFG : ∀ X Y : Op d, Xᴴ = X → ((X * Cᴴ)ᴴ * (Y * Cᴴ)).trace = (X * Y * s.asMat).trace := by
    intro X Y hX
    rw [conjTranspose_mul, conjTranspose_conjTranspose, hX, hC, Matrix.mul_assoc C X, trace_mul_comm C]
    simp only [Matrix.mul_assoc]
  have hcomm : expectationRaw (A * B - B * A) s = (Fᴴ * G).trace - (Gᴴ * F).trace := by
    rw [hF, hG, tFG _ _ hh, tFG _ _ hk, expectationRaw, ← trace_sub, ← Matrix.sub_mul]
    congr 2
    simp only [Matrix.sub_mul, Matrix.mul_sub, Matrix.smul_mul, Matrix.mul_smul, Matrix.one_mul, Matrix.mul_one]
    module
  have hn2 : ‖(Gᴴ * F).trace‖ = ‖(Fᴴ * G).trace‖ := by
    have gen : ∀ X Y : Op d, Yᴴ * X = (Xᴴ * Y)ᴴ := fun X Y => by rw [conjTranspose_mul, conjTranspose_conjTranspose]
    rw [gen F G, trace_conjTranspose]
    exact norm_star _
  have h1 := norm_sub_le (Fᴴ * G).trace (Gᴴ * F).trace
  rw [hcomm]
  have h2 := trace_cauchy F G
  rw [hn2] at h1
  linarith

/-- **C64 (eigenstates).** For a unit ket the standard deviation vanishes exactly if the ket is an eigenvector. -/
theorem C64_eigenstate (hd : d ≠ 1) (A : Op d) (hA : hc A = A) (k : Ket d) (hk : IsUnit k) :
    standardDev A (.ket k) = 0 ↔ ∃ e : ℝ, A * k = (e : ℂ) • k := by
  have hs : (QState.ket k).asMat = outerProd k := by simp [QState.asMat, hd]
  have hden : IsDensity (QState.ket k).asMat := by
    rw [hs]
    exact ⟨outerProd_pos k, by rw [outerProd_trace, hk]; simp⟩
  obtain ⟨m, hm, hmt⟩ := expectation_mean A (.ket k) hA hden
  -- the projector is its own factor
  have hfac : (QState.ket k).asMat = (outerProd k)ᴴ * outerProd k := by
    have hh : (outerProd k)ᴴ = outerProd k := (outerProd_pos k).isHermitian.eq
    rw [hs, hh, outerProd_mul_outerProd]
    have : innerProd k (some k) = 1 := by
      have : innerProd k (some k) = ((∑ i, ‖k i 0‖ ^ 2 : ℝ) : ℂ) := innerProd_self k
      rw [this, hk]; simp
    rw [this, one_smul]; rfl
  have hstd := std_frob A (.ket k) hA hden (outerProd k) hfac m hm
  have hfrob : frobSq ((A - (m : ℂ) • 1) * (outerProd k)ᴴ) = frobSq ((A - (m : ℂ) • 1) * k) := by
    have hh : (outerProd k)ᴴ = outerProd k := (outerProd_pos k).isHermitian.eq
    have e : (A - (m : ℂ) • 1) * outerProd k = ((A - (m : ℂ) • 1) * k) * kᴴ := by
      rw [Matrix.mul_assoc]; rfl
    rw [hh, e]
    simp only [frobSq, Matrix.mul_apply, Finset.univ_unique, Fin.default_eq_zero, Finset.sum_singleton, norm_mul, mul_pow]
    refine Finset.sum_congr rfl fun i _ => ?_
    rw [← Finset.mul_sum]
    have : ∑ j, ‖kᴴ 0 j‖ ^ 2 = 1 := by
      simp only [conjTranspose_apply, norm_star]; exact hk
    rw [this, mul_one]
  rw [hfrob] at hstd
  rw [hstd]
  have hz : ((Real.sqrt (frobSq ((A - (m : ℂ) • 1) * k)) : ℝ) : ℂ) = 0 ↔ (A - (m : ℂ) • 1) * k = 0 := by
    rw [Complex.ofReal_eq_zero, Real.sqrt_eq_zero (frobSq_nonneg _)]
    constructor
    · intro h
      ext i j
      have h1 := (Finset.sum_eq_zero_iff_of_nonneg (fun i _ => Finset.sum_nonneg fun j _ => by positivity)).mp h i (Finset.mem_univ i)
      have h2 := (Finset.sum_eq_zero_iff_of_nonneg (fun j _ => by positivity)).mp h1 j (Finset.mem_univ j)
      simpa using h2
    · intro h; rw [h]; simp [frobSq]
  rw [hz, Matrix.sub_mul, Matrix.smul_mul, Matrix.one_mul, sub_eq_zero]
  constructor
  · intro h; exact ⟨m, h⟩
  · rintro ⟨e, he⟩
    have h1 : (A * outerProd k).trace = (m : ℂ) := by rw [← hs]; exact hmt
    have h2 : A * outerProd k = (e : ℂ) • outerProd k := by
      have : A * outerProd k = A * k * hc k := by rw [Matrix.mul_assoc]; rfl
      rw [this, he, Matrix.smul_mul]; rfl
    rw [h2, trace_smul, outerProd_trace, hk] at h1
    have h3 : (e : ℂ) = m := by simpa using h1
    rw [he, h3]

/-- In the state `|0>` neither `sigmax` nor `sigmay` has a definite value, `sigmaz` has. -/
example : (∃ a b : ℝ, standardDev sigmax (.ket (basis 2 0)) = (a : ℂ) ∧ standardDev sigmay (.ket (basis 2 0)) = (b : ℂ) ∧ 1 ≤ a * b) ∧
    standardDev sigmaz (.ket (basis 2 0)) = 0 := by
  have hu : IsUnit (basis 2 0) := by simp [IsUnit, basis]
  have hs : (QState.ket (basis 2 0)).asMat = outerProd (basis 2 0) := by simp [QState.asMat]
  constructor
  · obtain ⟨a, b, h1, h2, -, -, h3⟩ := C64_uncertainty sigmax sigmay
      (by ext i j; fin_cases i <;> fin_cases j <;> simp [hc, sigmax])
      (by ext i j; fin_cases i <;> fin_cases j <;> simp [hc, sigmay]) (.ket (basis 2 0))
      (by rw [hs]; exact ⟨outerProd_pos _, by rw [outerProd_trace, hu]; simp⟩)
    refine ⟨a, b, h1, h2, ?_⟩
    have e : expectationRaw (sigmax * sigmay - sigmay * sigmax) (.ket (basis 2 0)) = 2 * Complex.I := by
      rw [expectationRaw, hs]
      simp only [trace, diag_apply, Matrix.mul_apply, Matrix.sub_apply, Fin.sum_univ_two, outerProd_self_apply]
      simp [sigmax, sigmay, basis]
      ring
    rw [e] at h3
    simpa using h3
  · refine (C64_eigenstate (by norm_num) sigmaz ?_ _ hu).mpr ⟨1, ?_⟩
    · ext i j; fin_cases i <;> fin_cases j <;> simp [hc, sigmaz]
    · ext i j; fin_cases i <;> simp [sigmaz, basis, Matrix.mul_apply, Fin.sum_univ_two]

/-- **C64 (bounds).** The standard deviation is at most the spectral norm. -/
theorem C64_bounded (A : Op d) (hA : hc A = A) (s : QState d) (hs : IsDensity s.asMat) (r : ℝ) (vals : List ℂ)
    (h : spectralNorm A = some (r, vals)) : ∃ a : ℝ, standardDev A s = (a : ℂ) ∧ 0 ≤ a ∧ a ≤ r := by
  obtain ⟨C, hC⟩ := posSemidef_factor hs.pos
  obtain ⟨m, hm, hmt⟩ := expectation_mean A s hA hs
  refine ⟨_, std_frob A s hA hs C hC m hm, Real.sqrt_nonneg _, ?_⟩
  obtain ⟨h0, hpos, -⟩ := spectralNorm_eigen A r vals h
  have hA' : Aᴴ = A := hA
  have hh : (A - (m : ℂ) • (1 : Op d))ᴴ = A - (m : ℂ) • 1 := by
    simp [conjTranspose_sub, conjTranspose_smul, hA']
  have e : ((frobSq ((A - (m : ℂ) • 1) * Cᴴ) : ℝ) : ℂ) = (A * A * s.asMat).trace - (m : ℂ) * m := by
    rw [← trace_conjTranspose_mul, conjTranspose_mul, conjTranspose_conjTranspose, hh]
    have : (C * (A - (m : ℂ) • 1) * ((A - (m : ℂ) • 1) * Cᴴ)).trace = ((A - (m : ℂ) • 1) * (A - (m : ℂ) • 1) * s.asMat).trace := by
      rw [hC, Matrix.mul_assoc C, trace_mul_comm C]
      simp only [Matrix.mul_assoc]
    rw [this]
    simp only [Matrix.sub_mul, Matrix.mul_sub, Matrix.smul_mul, Matrix.mul_smul, Matrix.one_mul, Matrix.mul_one,
      Matrix.trace_sub, Matrix.trace_smul, hs.tr, hmt, smul_eq_mul]
    ring
  obtain ⟨q, hq, hq0, -⟩ := trace_mul_bounds hpos hs.pos
  rw [hA', Matrix.sub_mul, Matrix.smul_mul, Matrix.one_mul, trace_sub, trace_smul, hs.tr, smul_eq_mul, mul_one] at hq
  have h2 : frobSq ((A - (m : ℂ) • 1) * Cᴴ) = r ^ 2 - q - m * m := by
    have : ((frobSq ((A - (m : ℂ) • 1) * Cᴴ) : ℝ) : ℂ) = ((r ^ 2 - q - m * m : ℝ) : ℂ) := by
      rw [e]
      push_cast
      rw [← hq]
      push_cast
      ring
    exact Complex.ofReal_injective this
  rw [h2]
  refine Real.sqrt_le_iff.mpr ⟨h0, ?_⟩
  nlinarith [mul_self_nonneg m]

/-- **C64 (shift and scale).** `standardDev(a A + b) = |a| standardDev(A)`. -/
theorem C64_scale (A : Op d) (hA : hc A = A) (s : QState d) (hs : IsDensity s.asMat) (a b : ℝ) :
    standardDev ((a : ℂ) • A + (b : ℂ) • 1) s = (|a| : ℝ) * standardDev A s := by
  obtain ⟨C, hC⟩ := posSemidef_factor hs.pos
  obtain ⟨m, hm, hmt⟩ := expectation_mean A s hA hs
  have hA' : Aᴴ = A := hA
  have hh : hc ((a : ℂ) • A + (b : ℂ) • (1 : Op d)) = (a : ℂ) • A + (b : ℂ) • 1 := by
    rw [hc_eq]
    simp [conjTranspose_add, conjTranspose_smul, hA']
  obtain ⟨n, hn, hnt⟩ := expectation_mean _ s hh hs
  have hnm : (n : ℂ) = ((a * m + b : ℝ) : ℂ) := by
    rw [← hnt, Matrix.add_mul, Matrix.smul_mul, Matrix.smul_mul, Matrix.one_mul, trace_add, trace_smul, trace_smul, hmt, hs.tr]
    simp
  rw [std_frob A s hA hs C hC m hm, std_frob _ s hh hs C hC n hn, ← Complex.ofReal_mul]
  congr 1
  have e : ((a : ℂ) • A + (b : ℂ) • (1 : Op d) - (n : ℂ) • 1) * Cᴴ = (a : ℂ) • ((A - (m : ℂ) • 1) * Cᴴ) := by
    rw [hnm, ← Matrix.smul_mul]
    congr 1
    push_cast
    module
  have e2 : frobSq ((a : ℂ) • ((A - (m : ℂ) • 1) * Cᴴ)) = a ^ 2 * frobSq ((A - (m : ℂ) • 1) * Cᴴ) := by
    simp only [frobSq, Matrix.smul_apply, smul_eq_mul, norm_mul, mul_pow, Complex.norm_real, Real.norm_eq_abs, sq_abs, Finset.mul_sum]
  rw [e, e2, Real.sqrt_mul (sq_nonneg a), Real.sqrt_sq_eq_abs]

/-- **C64 (columns).** `_expectationColArr` returns, for every column, the expectation value in that column, whether or not the columns
are orthogonal. -/
theorem C64_columns {n : ℕ} (hd : d ≠ 1) (op : Op d) (E : Matrix (Fin d) (Fin n) ℂ) (j : Fin n) :
    expectationColArr op E j = expectationRaw op (.ket (Matrix.of fun i _ => E i j)) := by
  rw [expectationRaw]
  have hs : (QState.ket (Matrix.of fun i _ => E i j : Ket d)).asMat = outerProd (Matrix.of fun i _ => E i j : Ket d) := by
    simp [QState.asMat, hd]
  rw [hs]
  simp only [expectationColArr, diag_apply, Matrix.mul_apply, trace, outerProd, hc, Option.getD_none, Matrix.map_apply, transpose_apply,
    Matrix.of_apply, Finset.univ_unique, Fin.default_eq_zero, Finset.sum_singleton, Finset.sum_mul]
  rw [Finset.sum_comm]
  refine Finset.sum_congr rfl fun i _ => Finset.sum_congr rfl fun k _ => ?_
  ring
end

end Verif.Toolbox
