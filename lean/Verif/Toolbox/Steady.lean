import Verif.Toolbox.TraceDist
import Mathlib.Analysis.Normed.Algebra.GelfandFormula
import Mathlib.LinearAlgebra.Eigenspace.Zero
import Mathlib.LinearAlgebra.Eigenspace.Matrix
import Mathlib.LinearAlgebra.Matrix.Charpoly.Eigs
import Mathlib.Analysis.Matrix.Normed

/-!
# C69: steady states

Model of `steadyState` (`evolution.py:400-406`) with `sortedEigens(_, mag=True)` (`functions.py:311-355`).
-/
namespace Verif.Toolbox
open Matrix NormedSpace Filter Topology
open scoped ComplexOrder

/-- What `sortedEigens(M, mag=True)` is known to return (`functions.py:343-355`): the eigenvalues of `M`, each as often as it is a root of
the characteristic polynomial, with an eigenvector each, ordered by magnitude. How `lina.eig` chooses the eigenvectors, and how `argsort`
orders equal magnitudes, is left open. -/
structure SortedByMagnitude {m : ℕ} (M : Op m) (l : List (ℂ × Ket m)) : Prop where
  roots : (Multiset.ofList (l.map Prod.fst)) = M.charpoly.roots
  vectors : ∀ p ∈ l, M * p.2 = p.1 • p.2 ∧ p.2 ≠ 0
  sorted : (l.map fun p => ‖p.1‖).Pairwise (· ≤ ·)

/-- A routine that behaves so for every matrix. -/
structure EigenRoutine where
  eig : ∀ {m : ℕ}, Op m → List (ℂ × Ket m)
  spec : ∀ {m : ℕ} (M : Op m), SortedByMagnitude M (eig M)

/-- `steadyState` (`evolution.py:400-406`): sorted eigenvalues and eigenvectors of the propagator for time one; without collapse operators
these are the ones of the unitary (first component), otherwise of the superoperator. `none` is an exception. -/
noncomputable def steadyState {n : ℕ} (e : EigenRoutine) (H : Option (Op n)) (cs : Option (List (Collapse n))) (rates : Option (List ℝ))
    (double : Bool := false) : Option (List (ℂ × Ket n) ⊕ List (ℂ × Ket (n * n))) :=
  match LiouvillianExp H 1 cs rates true double with
  | none => none
  | some (.unitary U) => some (.inl (e.eig U))
  | some (.super W) => some (.inr (e.eig W))

/-! ## Channels -/

variable {n : ℕ}

/-- Positive and trace preserving. -/
structure Channel (W : Op (n * n)) : Prop where
  pos : ∀ X : Op n, X.PosSemidef → (act W X).PosSemidef
  tr : ∀ X : Op n, (act W X).trace = X.trace

theorem act_map_add (W : Op (n * n)) (X Y : Op n) : act W (X + Y) = act W X + act W Y := by
  rw [act, mat2Vec_add, Matrix.mul_add, vec2Mat_add]; rfl

theorem act_map_smul (W : Op (n * n)) (c : ℂ) (X : Op n) : act W (c • X) = c • act W X := by
  rw [act, mat2Vec_smul, Matrix.mul_smul, vec2Mat_smul]; rfl

theorem act_map_sub (W : Op (n * n)) (X Y : Op n) : act W (X - Y) = act W X - act W Y := by
  rw [sub_eq_add_neg, act_map_add, ← neg_one_smul ℂ Y, act_map_smul, neg_one_smul, ← sub_eq_add_neg]

theorem act_map_sum {ι : Type} (W : Op (n * n)) (s : Finset ι) (f : ι → Op n) : act W (∑ i ∈ s, f i) = ∑ i ∈ s, act W (f i) := by
  classical
  induction s using Finset.induction_on with
  | empty =>
    simp only [Finset.sum_empty]
    have := act_map_smul W 0 (0 : Op n)
    simpa using this
  | insert a s ha ih => rw [Finset.sum_insert ha, Finset.sum_insert ha, act_map_add, ih]

theorem Channel.mul {W V : Op (n * n)} (hW : Channel W) (hV : Channel V) : Channel (W * V) where
  pos X hX := by rw [act_mul]; exact hW.pos _ (hV.pos X hX)
  tr X := by rw [act_mul, hW.tr, hV.tr]

theorem Channel.pow {W : Op (n * n)} (hW : Channel W) : ∀ k, Channel (W ^ k)
  | 0 => ⟨fun X hX => by rw [pow_zero, act_one]; exact hX, fun X => by rw [pow_zero, act_one]⟩
  | k + 1 => by rw [pow_succ]; exact (hW.pow k).mul hW

/-- The entries of a positive matrix are bounded by its trace. -/
theorem psd_entry_le {P : Op n} (hP : P.PosSemidef) (i j : Fin n) : ‖P i j‖ ≤ P.trace.re := by
  have hdiag : ∀ k, 0 ≤ (P k k).re := fun k => (Complex.le_def.1 (hP.diag_nonneg (i := k))).1
  have htr : P.trace.re = ∑ k, (P k k).re := by rw [Matrix.trace, Complex.re_sum]; rfl
  rw [htr]
  by_cases hij : i = j
  · subst hij
    have him : (P i i).im = 0 := (Complex.le_def.1 (hP.diag_nonneg (i := i))).2.symm
    rw [show P i i = (((P i i).re : ℝ) : ℂ) from Complex.ext rfl (by simp [him]), Complex.norm_real, Real.norm_eq_abs, abs_of_nonneg (hdiag i)]
    exact Finset.single_le_sum (f := fun k => (P k k).re) (fun k _ => hdiag k) (Finset.mem_univ i)
  · have h2 : (P i i).re + (P j j).re ≤ ∑ k, (P k k).re := by
      rw [← Finset.sum_pair (f := fun k => (P k k).re) hij]
      exact Finset.sum_le_sum_of_subset_of_nonneg (Finset.subset_univ _) fun k _ _ => hdiag k
    obtain ⟨w, hw1, hw2⟩ : ∃ w : ℂ, ‖w‖ = 1 ∧ w * P i j = -(‖P i j‖ : ℂ) := by
      by_cases h0 : P i j = 0
      · exact ⟨1, by simp, by simp [h0]⟩
      · refine ⟨-((‖P i j‖ : ℂ) / P i j), ?_, ?_⟩
        · rw [norm_neg, norm_div, Complex.norm_real, norm_norm, div_self (norm_ne_zero_iff.2 h0)]
        · rw [neg_mul, div_mul_cancel₀ _ h0]
    have h3 := hP.dotProduct_mulVec_nonneg (Pi.single i 1 + Pi.single j w)
    have h4 : star (Pi.single i 1 + Pi.single j w : Fin n → ℂ) ⬝ᵥ (P *ᵥ (Pi.single i 1 + Pi.single j w)) =
        P i i + w * P i j + star w * P j i + star w * w * P j j := by
      rw [Matrix.mulVec_add, star_add, add_dotProduct, dotProduct_add, dotProduct_add, ← Pi.single_star, ← Pi.single_star]
      simp only [single_dotProduct, Matrix.mulVec_single, star_one, one_mul, MulOpposite.op_one, one_smul, Pi.smul_apply, col_apply,
        MulOpposite.smul_eq_mul_unop, MulOpposite.unop_op]
      ring
    rw [h4] at h3
    have h5 : star w * P j i = star (w * P i j) := by
      rw [star_mul', hP.isHermitian.apply j i]
    have h6 : star w * w = 1 := by
      rw [Complex.star_def, mul_comm, Complex.mul_conj, Complex.normSq_eq_norm_sq, hw1]; simp
    rw [h5, h6, hw2, one_mul] at h3
    have h7 := (Complex.le_def.1 h3).1
    simp at h7
    have := norm_nonneg (P i j)
    linarith

/-- Every matrix is a combination of four positive ones. -/
theorem four_positive (X : Op n) : ∃ P Q R S : Op n, P.PosSemidef ∧ Q.PosSemidef ∧ R.PosSemidef ∧ S.PosSemidef ∧
    X = (P - Q) + Complex.I • (R - S) := by
  have hA : ((1 / 2 : ℂ) • (X + Xᴴ)).IsHermitian := by
    rw [Matrix.IsHermitian, conjTranspose_smul, conjTranspose_add, conjTranspose_conjTranspose, add_comm]
    simp
  have hB : ((-(Complex.I / 2) : ℂ) • (X - Xᴴ)).IsHermitian := by
    rw [Matrix.IsHermitian, conjTranspose_smul, conjTranspose_sub, conjTranspose_conjTranspose, ← neg_sub X Xᴴ, smul_neg, ← neg_smul]
    congr 1
    simp [neg_div]
  obtain ⟨P, Q, hP, hQ, h1, _⟩ := exists_jordan hA
  obtain ⟨R, S, hR, hS, h2, _⟩ := exists_jordan hB
  refine ⟨P, Q, R, S, hP, hQ, hR, hS, ?_⟩
  rw [← h1, ← h2, smul_smul, show Complex.I * -(Complex.I / 2) = 1 / 2 by
    rw [mul_neg, mul_div_assoc', Complex.I_mul_I]; ring, ← smul_add]
  ext i j
  simp only [Matrix.smul_apply, Matrix.add_apply, Matrix.sub_apply, smul_eq_mul]
  ring

/-- The powers of a channel stay bounded on every matrix. -/
theorem Channel.bounded {W : Op (n * n)} (hW : Channel W) (X : Op n) : ∃ C : ℝ, ∀ k i j, ‖act (W ^ k) X i j‖ ≤ C := by
  obtain ⟨P, Q, R, S, hP, hQ, hR, hS, rfl⟩ := four_positive X
  refine ⟨P.trace.re + Q.trace.re + (R.trace.re + S.trace.re), fun k i j => ?_⟩
  have b : ∀ Y : Op n, Y.PosSemidef → ‖act (W ^ k) Y i j‖ ≤ Y.trace.re := fun Y hY => by
    rw [← (hW.pow k).tr Y]; exact psd_entry_le ((hW.pow k).pos Y hY) i j
  rw [act_map_add, act_map_smul, act_map_sub, act_map_sub]
  simp only [Matrix.add_apply, Matrix.smul_apply, Matrix.sub_apply, smul_eq_mul]
  refine (norm_add_le _ _).trans (add_le_add ((norm_sub_le _ _).trans (add_le_add (b P hP) (b Q hQ))) ?_)
  rw [norm_mul, Complex.norm_I, one_mul]
  exact (norm_sub_le _ _).trans (add_le_add (b R hR) (b S hS))

theorem pow_eigen {m : ℕ} (W : Op m) (v : Ket m) (c : ℂ) (h : W * v = c • v) (k : ℕ) : W ^ k * v = c ^ k • v := by
  induction k with
  | zero => simp
  | succ k ih => rw [pow_succ, Matrix.mul_assoc, h, Matrix.mul_smul, ih, smul_smul, pow_succ, mul_comm]

/-- No eigenvalue of a channel lies outside the unit disc. -/
theorem Channel.eigenvalue_le {W : Op (n * n)} (hW : Channel W) (v : Ket (n * n)) (c : ℂ) (h : W * v = c • v) (hv : v ≠ 0) : ‖c‖ ≤ 1 := by
  by_contra hc
  push Not at hc
  obtain ⟨C, hC⟩ := hW.bounded (vec2Mat v)
  have hX : vec2Mat v ≠ 0 := by
    intro h0
    apply hv
    rw [← C39_mat2Vec_vec2Mat v, h0]
    ext a b
    simp [mat2Vec]
  obtain ⟨i, j, hij⟩ : ∃ i j, vec2Mat v i j ≠ 0 := by
    by_contra hall
    push Not at hall
    exact hX (Matrix.ext hall)
  have hpos : 0 < ‖vec2Mat v i j‖ := norm_pos_iff.2 hij
  have ht := (tendsto_pow_atTop_atTop_of_one_lt hc).atTop_mul_const hpos
  obtain ⟨k, hk⟩ := (ht.eventually_gt_atTop C).exists
  have := hC k i j
  rw [act, C39_mat2Vec_vec2Mat, pow_eigen W v c h, vec2Mat_smul, Matrix.smul_apply, smul_eq_mul, norm_mul, norm_pow] at this
  linarith

theorem Channel.traceRow {W : Op (n * n)} (hW : Channel W) : traceRow n * W = Verif.Toolbox.traceRow n := by
  have : ∀ v : Ket (n * n), Verif.Toolbox.traceRow n * W * v = Verif.Toolbox.traceRow n * v := by
    intro v
    rw [Matrix.mul_assoc, ← C39_mat2Vec_vec2Mat v, ← mat2Vec_act, traceRow_mul, traceRow_mul, hW.tr]
  ext i j
  have h1 := congrFun (congrFun (this (Matrix.of fun k _ => if k = j then 1 else 0)) i) 0
  simpa [Matrix.mul_apply] using h1

/-- One is an eigenvalue of every channel. -/
theorem Channel.one_root {W : Op (n * n)} (hW : Channel W) (hn : n ≠ 0) : (1 : ℂ) ∈ W.charpoly.roots := by
  rw [Polynomial.mem_roots W.charpoly_monic.ne_zero, Polynomial.IsRoot.def, Matrix.eval_charpoly]
  rw [← Matrix.exists_vecMul_eq_zero_iff]
  refine ⟨Verif.Toolbox.traceRow n 0, ?_, ?_⟩
  · intro h0
    have := congrFun (congrFun (traceRow_mul (n := n) (1 : Op n)) 0) 0
    rw [Matrix.mul_apply, h0] at this
    simp at this
    exact hn (by exact_mod_cast this.symm)
  · rw [Matrix.vecMul_sub, scalar_apply, ← smul_one_eq_diagonal, one_smul, Matrix.vecMul_one, sub_eq_zero]
    have := congrFun hW.traceRow 0
    exact this.symm

/-! ## Steady density matrices exist -/

/-- The positive and negative part of a Hermitian matrix live on complementary subspaces. -/
theorem exists_jordan_proj {D : Op n} (hD : D.IsHermitian) : ∃ P Q E : Op n, P.PosSemidef ∧ Q.PosSemidef ∧ D = P - Q ∧
    Eᴴ = E ∧ E * E = E ∧ E * P = P ∧ E * Q = 0 := by
  obtain ⟨U, h1, h2, h3⟩ := exists_diag hD
  have hdiag : ∀ f : Fin n → ℝ, (∀ i, 0 ≤ f i) → (U * diagonal (fun i => ((f i : ℝ) : ℂ)) * Uᴴ).PosSemidef := by
    intro f hf
    exact (PosSemidef.diagonal (n := Fin n) (d := fun i => ((f i : ℝ) : ℂ)) fun i => by
      simpa using hf i).mul_mul_conjTranspose_same U
  have hmul : ∀ f g : Fin n → ℂ, U * diagonal f * Uᴴ * (U * diagonal g * Uᴴ) = U * diagonal (fun i => f i * g i) * Uᴴ := by
    intro f g
    rw [← diagonal_mul_diagonal]
    simp only [Matrix.mul_assoc]
    rw [← Matrix.mul_assoc Uᴴ U, h1, Matrix.one_mul]
  refine ⟨U * diagonal (fun i => ((max (hD.eigenvalues i) 0 : ℝ) : ℂ)) * Uᴴ,
    U * diagonal (fun i => ((max (-hD.eigenvalues i) 0 : ℝ) : ℂ)) * Uᴴ,
    U * diagonal (fun i => if 0 < hD.eigenvalues i then 1 else 0) * Uᴴ,
    hdiag _ fun i => le_max_right _ _, hdiag _ fun i => le_max_right _ _, ?_, ?_, ?_, ?_, ?_⟩
  · conv_lhs => rw [h3]
    rw [← Matrix.sub_mul, ← Matrix.mul_sub, diagonal_sub]
    congr 3
    funext i
    rw [← Complex.ofReal_sub]
    congr 1
    rcases le_total 0 (hD.eigenvalues i) with h | h
    · rw [max_eq_left h, max_eq_right (by linarith)]; ring
    · rw [max_eq_right h, max_eq_left (by linarith)]; ring
  · rw [conjTranspose_mul, conjTranspose_mul, conjTranspose_conjTranspose, diagonal_conjTranspose, Matrix.mul_assoc]
    congr 3
    funext i
    by_cases h : 0 < hD.eigenvalues i <;> simp [h]
  · rw [hmul]
    congr 3
    funext i
    by_cases h : 0 < hD.eigenvalues i <;> simp [h]
  · rw [hmul]
    congr 3
    funext i
    by_cases h : 0 < hD.eigenvalues i
    · simp [h]
    · simp only [h, if_false, zero_mul, max_eq_right (not_lt.1 h), Complex.ofReal_zero]
  · rw [hmul]
    have : (fun i => (if 0 < hD.eigenvalues i then 1 else 0 : ℂ) * ((max (-hD.eigenvalues i) 0 : ℝ) : ℂ)) = fun _ => 0 := by
      funext i
      by_cases h : 0 < hD.eigenvalues i
      · rw [max_eq_right (by linarith)]; simp
      · simp [h]
    rw [this]
    simp

open scoped MatrixOrder Matrix.Norms.L2Operator in
/-- A positive matrix whose compression to a projector has no trace vanishes on that projector. -/
theorem psd_proj_zero {P E : Op n} (hP : P.PosSemidef) (hE : Eᴴ = E) (hE2 : E * E = E) (h : (E * P).trace.re ≤ 0) : E * P = 0 := by
  have h1 : (E * P * E).PosSemidef := by
    have := hP.mul_mul_conjTranspose_same E
    rwa [hE] at this
  have h2 : (E * P * E).trace = (E * P).trace := by
    rw [Matrix.trace_mul_comm, ← Matrix.mul_assoc, hE2]
  have h3 : (E * P * E).trace = 0 := by
    have h4 := Complex.le_def.1 h1.trace_nonneg
    refine Complex.ext (le_antisymm ?_ h4.1) h4.2.symm
    rw [h2]; exact h
  have h4 : E * P * E = 0 := (PosSemidef.trace_eq_zero_iff h1).1 h3
  obtain ⟨B, hB⟩ : ∃ B : Op n, P = Bᴴ * B := CStarAlgebra.nonneg_iff_eq_star_mul_self.mp hP.nonneg
  rw [hB] at h4 ⊢
  have h5 : (B * E)ᴴ * (B * E) = 0 := by
    rw [conjTranspose_mul, hE]
    simpa only [Matrix.mul_assoc] using h4
  have h6 := conjTranspose_mul_self_eq_zero.1 h5
  have h7 : E * Bᴴ = 0 := by
    have := congrArg conjTranspose h6
    rwa [conjTranspose_mul, hE, conjTranspose_zero] at this
  rw [← Matrix.mul_assoc, h7, Matrix.zero_mul]

/-- A channel that keeps a Hermitian matrix also keeps its positive and its negative part. -/
theorem Channel.keeps_parts {W : Op (n * n)} (hW : Channel W) {P Q E : Op n} (hP : P.PosSemidef) (hQ : Q.PosSemidef) (hE : Eᴴ = E)
    (hE2 : E * E = E) (h1 : E * P = P) (h2 : E * Q = 0) (h : act W (P - Q) = P - Q) : act W P = P ∧ act W Q = Q := by
  rw [act_map_sub] at h
  set P' := act W P
  set Q' := act W Q
  have hP' : P'.PosSemidef := hW.pos P hP
  have hQ' : Q'.PosSemidef := hW.pos Q hQ
  have hF : (1 - E)ᴴ = 1 - E := by rw [conjTranspose_sub, conjTranspose_one, hE]
  have hF2 : (1 - E) * (1 - E) = 1 - E := by
    rw [Matrix.mul_sub, Matrix.mul_one, Matrix.sub_mul, hE2]; simp
  have hEP : E * P' - E * Q' = P := by rw [← Matrix.mul_sub, h, Matrix.mul_sub, h1, h2, sub_zero]
  have nn : ∀ {F Y : Op n}, Y.PosSemidef → Fᴴ = F → F * F = F → 0 ≤ (F * Y).trace.re := by
    intro F Y hY hF hF2
    have h1 : (F * Y * F).PosSemidef := by
      have := hY.mul_mul_conjTranspose_same F
      rwa [hF] at this
    have h2 : (F * Y * F).trace = (F * Y).trace := by
      rw [Matrix.trace_mul_comm, ← Matrix.mul_assoc, hF2]
    rw [← h2]
    exact (Complex.le_def.1 h1.trace_nonneg).1
  have ht : P'.trace = P.trace := hW.tr P
  have hsum : ((1 - E) * P').trace.re + (E * Q').trace.re = 0 := by
    have e1 : ((1 - E) * P').trace = P'.trace - (E * P').trace := by rw [Matrix.sub_mul, Matrix.one_mul, Matrix.trace_sub]
    have e2 : (E * P').trace - (E * Q').trace = P.trace := by rw [← Matrix.trace_sub, hEP]
    rw [e1, ht, ← e2]
    simp
  have n1 := nn hP' hF hF2
  have n2 := nn hQ' hE hE2
  have z1 := psd_proj_zero hP' hF hF2 (by linarith)
  have z2 := psd_proj_zero hQ' hE hE2 (by linarith)
  have hPP : P' = P := by
    rw [z2, sub_zero] at hEP
    rw [Matrix.sub_mul, Matrix.one_mul, hEP, sub_eq_zero] at z1
    exact z1
  refine ⟨hPP, ?_⟩
  rw [hPP] at h
  exact sub_right_injective h

theorem vec2Mat_ne_zero {v : Ket (n * n)} (hv : v ≠ 0) : vec2Mat v ≠ 0 := by
  intro h0
  apply hv
  rw [← C39_mat2Vec_vec2Mat v, h0]
  ext a b
  simp [mat2Vec]

theorem act_eq_zero {L : Op (n * n)} {v : Ket (n * n)} (h : L * v = 0) : act L (vec2Mat v) = 0 := by
  rw [act, C39_mat2Vec_vec2Mat, h]
  ext i j
  simp [vec2Mat]

/-- A generator of channels has a density matrix it maps to zero. -/
theorem exists_steady (L : Op (n * n)) (hn : n ≠ 0) (hk : TraceKilling L) (hh : HermPreserving L)
    (hc : ∀ t : ℝ, 0 ≤ t → Channel (exp ((t : ℂ) • L))) :
    ∃ rho : Op n, rho.PosSemidef ∧ rho.trace = 1 ∧ ∀ t : ℝ, 0 ≤ t → act (exp ((t : ℂ) • L)) rho = rho := by
  obtain ⟨v, hv, hLv⟩ : ∃ v : Fin (n * n) → ℂ, v ≠ 0 ∧ L *ᵥ v = 0 := by
    rw [Matrix.exists_mulVec_eq_zero_iff, ← Matrix.exists_vecMul_eq_zero_iff]
    refine ⟨traceRow n 0, ?_, ?_⟩
    · intro h0
      have := congrFun (congrFun (traceRow_mul (n := n) (1 : Op n)) 0) 0
      rw [Matrix.mul_apply, h0] at this
      simp at this
      exact hn (by exact_mod_cast this.symm)
    · exact congrFun (traceRow_kill L hk) 0
  let w : Ket (n * n) := Matrix.of fun i _ => v i
  have hw : w ≠ 0 := by
    intro h0
    apply hv
    funext i
    exact congrFun (congrFun h0 i) 0
  have hLw : L * w = 0 := by
    ext i j
    exact congrFun hLv i
  have hX := vec2Mat_ne_zero hw
  have hLX : act L (vec2Mat w) = 0 := act_eq_zero hLw
  have hLX' : act L (vec2Mat w)ᴴ = 0 := by
    rw [(hermPreserving_act L).1 hh, hLX, conjTranspose_zero]
  obtain ⟨Y, hY, hY0, hLY⟩ : ∃ Y : Op n, Y.IsHermitian ∧ Y ≠ 0 ∧ act L Y = 0 := by
    by_cases h0 : vec2Mat w + (vec2Mat w)ᴴ = 0
    · refine ⟨Complex.I • vec2Mat w, ?_, ?_, ?_⟩
      · rw [Matrix.IsHermitian, conjTranspose_smul, ← neg_eq_of_add_eq_zero_right h0]
        simp
      · exact smul_ne_zero Complex.I_ne_zero hX
      · rw [act_map_smul, hLX, smul_zero]
    · refine ⟨_, ?_, h0, ?_⟩
      · rw [Matrix.IsHermitian, conjTranspose_add, conjTranspose_conjTranspose, add_comm]
      · rw [act_map_add, hLX, hLX', add_zero]
  obtain ⟨P, Q, E, hP, hQ, rfl, hE, hE2, h1, h2⟩ := exists_jordan_proj hY
  have hfix : ∀ t : ℝ, 0 ≤ t → act (exp ((t : ℂ) • L)) P = P ∧ act (exp ((t : ℂ) • L)) Q = Q := by
    intro t ht
    refine (hc t ht).keeps_parts hP hQ hE hE2 h1 h2 ?_
    have h3 : ((t : ℂ) • L) * mat2Vec (P - Q) = (0 : ℂ) • mat2Vec (P - Q) := by
      rw [Matrix.smul_mul, ← mat2Vec_act, hLY, zero_smul]
      ext a b
      simp [mat2Vec]
    rw [act, exp_mul_eigen _ _ _ h3, Complex.exp_zero, one_smul, C39_vec2Mat_mat2Vec]
  obtain ⟨R, hR, hR0, hRf⟩ : ∃ R : Op n, R.PosSemidef ∧ R.trace ≠ 0 ∧ ∀ t : ℝ, 0 ≤ t → act (exp ((t : ℂ) • L)) R = R := by
    by_cases hp : P.trace = 0
    · by_cases hq : Q.trace = 0
      · rw [(PosSemidef.trace_eq_zero_iff hP).1 hp, (PosSemidef.trace_eq_zero_iff hQ).1 hq, sub_zero] at hY0
        exact absurd rfl hY0
      · exact ⟨Q, hQ, hq, fun t ht => (hfix t ht).2⟩
    · exact ⟨P, hP, hp, fun t ht => (hfix t ht).1⟩
  refine ⟨R.trace⁻¹ • R, ?_, ?_, fun t ht => ?_⟩
  · refine hR.smul ?_
    have h3 := Complex.le_def.1 hR.trace_nonneg
    rw [show R.trace = ((R.trace.re : ℝ) : ℂ) from Complex.ext rfl (by simpa using h3.2.symm), ← Complex.ofReal_inv]
    exact Complex.zero_le_real.2 (inv_nonneg.2 h3.1)
  · rw [Matrix.trace_smul, smul_eq_mul, inv_mul_cancel₀ hR0]
  · rw [act_map_smul, hRf t ht]

/-! ## Convergence -/

section
open scoped Matrix.Norms.Operator

/-- Every eigenvalue of a matrix has an eigenvector. -/
theorem exists_eigenvector {m : ℕ} (M : Op m) (c : ℂ) (h : c ∈ M.charpoly.roots) : ∃ v : Ket m, M * v = c • v ∧ v ≠ 0 := by
  rw [Polynomial.mem_roots M.charpoly_monic.ne_zero, Polynomial.IsRoot.def, Matrix.eval_charpoly, ← Matrix.exists_mulVec_eq_zero_iff] at h
  obtain ⟨v, hv, h⟩ := h
  rw [Matrix.sub_mulVec, scalar_apply, ← smul_one_eq_diagonal, Matrix.smul_mulVec, Matrix.one_mulVec, sub_eq_zero] at h
  refine ⟨Matrix.of fun i _ => v i, ?_, ?_⟩
  · ext i j
    exact (congrFun h i).symm
  · intro h0
    exact hv (funext fun i => congrFun (congrFun h0 i) 0)

theorem root_of_eigenvector {m : ℕ} (M : Op m) (c : ℂ) (v : Ket m) (h : M * v = c • v) (hv : v ≠ 0) : c ∈ M.charpoly.roots := by
  rw [Polynomial.mem_roots M.charpoly_monic.ne_zero, Polynomial.IsRoot.def, Matrix.eval_charpoly, ← Matrix.exists_mulVec_eq_zero_iff]
  refine ⟨fun i => v i 0, ?_, ?_⟩
  · intro h0
    apply hv
    ext i j
    rw [Subsingleton.elim j 0]
    exact congrFun h0 i
  · rw [Matrix.sub_mulVec, scalar_apply, ← smul_one_eq_diagonal, Matrix.smul_mulVec, Matrix.one_mulVec, sub_eq_zero]
    funext i
    exact (congrFun (congrFun h i) 0).symm

/-- A matrix with all eigenvalues inside the unit disc has powers tending to zero. -/
theorem pow_tendsto_zero {m : ℕ} (N : Op m) (h : ∀ (v : Ket m) (c : ℂ), N * v = c • v → v ≠ 0 → ‖c‖ < 1) :
    Tendsto (fun k : ℕ => N ^ k) atTop (𝓝 0) := by
  rcases Nat.eq_zero_or_pos m with rfl | hm
  · refine tendsto_const_nhds.congr fun k => ?_
    ext i
    exact i.elim0
  haveI : Nonempty (Fin m) := ⟨⟨0, hm⟩⟩
  have hr : spectralRadius ℂ N < ((1 : NNReal) : ENNReal) := by
    refine spectrum.spectralRadius_lt_of_forall_lt N fun z hz => ?_
    rw [Matrix.mem_spectrum_iff_isRoot_charpoly, ← Polynomial.mem_roots N.charpoly_monic.ne_zero] at hz
    obtain ⟨v, hv, hv0⟩ := exists_eigenvector N z hz
    exact h v z hv hv0
  obtain ⟨q, hq1, hq2⟩ := ENNReal.lt_iff_exists_nnreal_btwn.1 hr
  have hq2' : q < 1 := by exact_mod_cast hq2
  have hev := (spectrum.pow_nnnorm_pow_one_div_tendsto_nhds_spectralRadius N).eventually (gt_mem_nhds hq1)
  refine tendsto_zero_iff_norm_tendsto_zero.2 ?_
  have hg : Tendsto (fun k : ℕ => (q : ℝ) ^ k) atTop (𝓝 0) :=
    tendsto_pow_atTop_nhds_zero_of_lt_one q.2 (by exact_mod_cast hq2')
  refine squeeze_zero' (Eventually.of_forall fun k => norm_nonneg _) ?_ hg
  filter_upwards [hev, eventually_gt_atTop 0] with k hk hk0
  have hk' : (k : ℝ) ≠ 0 := by exact_mod_cast hk0.ne'
  have h2 : (‖N ^ k‖₊ : ENNReal) ≤ (q : ENNReal) ^ k := by
    have h3 := ENNReal.rpow_le_rpow hk.le (z := (k : ℝ)) (by positivity)
    rw [← ENNReal.rpow_mul, one_div, inv_mul_cancel₀ hk', ENNReal.rpow_one, ENNReal.rpow_natCast] at h3
    exact h3
  have h4 : ‖N ^ k‖₊ ≤ q ^ k := by exact_mod_cast h2
  exact_mod_cast h4

end

/-- All fixed vectors of a matrix for which one is a simple root are proportional. -/
theorem fixed_proportional {m : ℕ} (W : Op m) (h : W.charpoly.rootMultiplicity 1 ≤ 1) (u v : Ket m) (hu : W * u = u) (hv : W * v = v)
    (hu0 : u ≠ 0) : ∃ a : ℂ, v = a • u := by
  have hle := LinearMap.finrank_eigenspace_le W.toLin' 1
  rw [Matrix.charpoly_toLin'] at hle
  have hmem : ∀ w : Ket m, W * w = w → (fun i => w i 0) ∈ Module.End.eigenspace W.toLin' 1 := by
    intro w hw
    rw [Module.End.mem_eigenspace_iff, Matrix.toLin'_apply, one_smul]
    funext i
    exact congrFun (congrFun hw i) 0
  have h1 : Module.finrank ℂ (Module.End.eigenspace W.toLin' 1) ≤ 1 := hle.trans h
  obtain ⟨x, hx⟩ := finrank_le_one_iff.1 h1
  obtain ⟨a, ha⟩ := hx ⟨_, hmem u hu⟩
  obtain ⟨b, hb⟩ := hx ⟨_, hmem v hv⟩
  have ha' : ∀ i, a * x.1 i = u i 0 := fun i => congrFun (congrArg Subtype.val ha) i
  have hb' : ∀ i, b * x.1 i = v i 0 := fun i => congrFun (congrArg Subtype.val hb) i
  have ha0 : a ≠ 0 := by
    rintro rfl
    apply hu0
    ext i j
    rw [Subsingleton.elim j 0, ← ha' i, zero_mul]; rfl
  refine ⟨b / a, ?_⟩
  ext i j
  rw [Subsingleton.elim j 0, Matrix.smul_apply, ← ha' i, ← hb' i, smul_eq_mul]
  field_simp

/-- The powers of a channel with one as only, simple eigenvalue of magnitude one. -/
theorem Channel.attracts {W : Op (n * n)} (hW : Channel W) {rho : Op n} (ht : rho.trace = 1) (hf : act W rho = rho)
    (hm : W.charpoly.rootMultiplicity 1 ≤ 1) (hlt : ∀ c ∈ W.charpoly.roots, c ≠ 1 → ‖c‖ < 1) (X : Op n) :
    Tendsto (fun k : ℕ => act (W ^ k) X) atTop (𝓝 (X.trace • rho)) := by
  set r := mat2Vec rho with hr
  have hWr : W * r = r := by rw [hr, ← mat2Vec_act, hf]
  have hr0 : r ≠ 0 := by
    intro h0
    have : rho = 0 := by
      rw [← C39_vec2Mat_mat2Vec rho, ← hr, h0]
      ext i j
      simp [vec2Mat]
    rw [this] at ht
    simp at ht
  have hTr : Verif.Toolbox.traceRow n * r = 1 := by
    rw [hr, traceRow_mul, ht]
    ext i j
    rw [Subsingleton.elim i j]
    simp
  set N := W - r * Verif.Toolbox.traceRow n with hN
  have hTN : Verif.Toolbox.traceRow n * N = 0 := by
    rw [hN, Matrix.mul_sub, hW.traceRow, ← Matrix.mul_assoc, hTr, Matrix.one_mul, sub_self]
  have hev : ∀ (v : Ket (n * n)) (c : ℂ), N * v = c • v → v ≠ 0 → ‖c‖ < 1 := by
    intro v c hv hv0
    by_cases hc : c = 0
    · rw [hc]; simp
    have h1 : Verif.Toolbox.traceRow n * v = 0 := by
      have h2 : c • (Verif.Toolbox.traceRow n * v) = 0 := by
        rw [← Matrix.mul_smul, ← hv, ← Matrix.mul_assoc, hTN, Matrix.zero_mul]
      exact (smul_eq_zero.1 h2).resolve_left hc
    have h3 : W * v = c • v := by
      rw [← hv, hN, Matrix.sub_mul, Matrix.mul_assoc, h1, Matrix.mul_zero, sub_zero]
    by_cases hc1 : c = 1
    · exfalso
      rw [hc1, one_smul] at h3
      obtain ⟨a, rfl⟩ := fixed_proportional W hm r v hWr h3 hr0
      rw [Matrix.mul_smul, hTr] at h1
      have ha : a = 0 := by
        have := congrFun (congrFun h1 0) 0
        simpa using this
      exact hv0 (by rw [ha, zero_smul])
    · exact hlt c (root_of_eigenvector W c v h3 hv0) hc1
  have hpow : ∀ k : ℕ, N ^ (k + 1) = W ^ (k + 1) - r * Verif.Toolbox.traceRow n := by
    intro k
    induction k with
    | zero => rw [zero_add, pow_one, pow_one]
    | succ k ih =>
      have hWk : W ^ (k + 1) * r = r := by
        have := pow_eigen W r 1 (by rw [hWr, one_smul]) (k + 1)
        rwa [one_pow, one_smul] at this
      rw [pow_succ, ih, Matrix.sub_mul, Matrix.mul_assoc, hTN, Matrix.mul_zero, sub_zero, hN, Matrix.mul_sub, ← Matrix.mul_assoc, hWk, ← pow_succ]
  have h0 := (tendsto_add_atTop_iff_nat 1).2 (pow_tendsto_zero N hev)
  have h1 : Tendsto (fun k : ℕ => W ^ (k + 1)) atTop (𝓝 (r * Verif.Toolbox.traceRow n)) := by
    have := h0.add_const (r * Verif.Toolbox.traceRow n)
    rw [zero_add] at this
    exact this.congr fun k => by rw [hpow, sub_add_cancel]
  have hcont : Continuous fun V : Op (n * n) => act V X := by
    refine continuous_matrix fun i j => ?_
    simp only [act, vec2Mat]
    exact (continuous_id.matrix_mul continuous_const).matrix_elem _ _
  have h2 := (hcont.tendsto _).comp h1
  have h3 : act (r * Verif.Toolbox.traceRow n) X = X.trace • rho := by
    have : r * Verif.Toolbox.traceRow n * mat2Vec X = X.trace • r := by
      rw [Matrix.mul_assoc, traceRow_mul]
      ext i j
      rw [Subsingleton.elim j 0]
      change ∑ k : Fin 1, r i k * X.trace = X.trace * r i 0
      rw [Fin.sum_univ_one, mul_comm]
    rw [act, this, vec2Mat_smul, hr, C39_vec2Mat_mat2Vec]
  rw [h3] at h2
  exact (tendsto_add_atTop_iff_nat 1).1 h2

/-! ## The properties -/

/-- With operators as collapse operators the routine returns eigenvectors of `e^L`, and all `e^(tL)` are channels. -/
theorem steady_setup (e : EigenRoutine) (H : Option (Op n)) (hH : ∀ h, H = some h → h.IsHermitian) (As : List (Op n))
    (rates : Option (List ℝ)) (hr : ∀ rs, rates = some rs → ∀ r ∈ rs, 0 ≤ r) (double : Bool) (l : List (ℂ × Ket (n * n)))
    (h : steadyState e H (some (As.map .op)) rates double = some (.inr l)) :
    ∃ L : Op (n * n), (∀ t : ℝ, LiouvillianExp H t (some (As.map .op)) rates true double = some (.super (exp ((t : ℂ) • L)))) ∧
      (∀ t : ℝ, 0 ≤ t → Channel (exp ((t : ℂ) • L))) ∧ SortedByMagnitude (exp (((1 : ℝ) : ℂ) • L)) l ∧ TraceKilling L ∧ HermPreserving L := by
  have hok : ∀ P : Op (n * n) → Prop, ∀ l, some (As.map Collapse.op) = some l → ∀ c ∈ l, CollapseOk P c := by
    rintro P l ⟨⟩ c hc
    obtain ⟨A, _, rfl⟩ := List.mem_map.mp hc
    trivial
  cases hL : Liouvillian H (some (As.map .op)) rates double with
  | none => simp [steadyState, LiouvillianExp, hL] at h
  | some L =>
    have hexp : ∀ t : ℝ, LiouvillianExp H t (some (As.map .op)) rates true double = some (.super (exp ((t : ℂ) • L))) := by
      intro t
      simp [LiouvillianExp, hL]
    refine ⟨L, hexp, fun t ht => ⟨fun X hX => ?_, fun X => ?_⟩, ?_, ?_, ?_⟩
    · exact (C55_completely_positive H hH _ rates hr double (hok _) L hL t ht).positive X hX
    · exact C40_exp_trace L (C40_traceless H _ rates double (hok _) L hL) t X
    · rw [steadyState, hexp] at h
      simp only [Option.some.injEq, Sum.inr.injEq] at h
      rw [← h]
      exact e.spec _
    · exact C40_traceless H _ rates double (hok _) L hL
    · exact C40_hermitian H hH _ rates double (hok _) L hL

/-- **C69**: no returned value lies outside the unit disc. -/
theorem C69_unit_disc (e : EigenRoutine) (H : Option (Op n)) (hH : ∀ h, H = some h → h.IsHermitian) (As : List (Op n))
    (rates : Option (List ℝ)) (hr : ∀ rs, rates = some rs → ∀ r ∈ rs, 0 ≤ r) (double : Bool) (l : List (ℂ × Ket (n * n)))
    (h : steadyState e H (some (As.map .op)) rates double = some (.inr l)) : ∀ p ∈ l, ‖p.1‖ ≤ 1 := by
  obtain ⟨L, _, hc, hs, _, _⟩ := steady_setup e H hH As rates hr double l h
  intro p hp
  obtain ⟨h1, h2⟩ := hs.vectors p hp
  exact (hc 1 zero_le_one).eigenvalue_le p.2 p.1 h1 h2

theorem last_norm {m : ℕ} {l l' : List (ℂ × Ket m)} {p : ℂ × Ket m} (hl : l = l' ++ [p])
    (hs : (l.map fun p => ‖p.1‖).Pairwise (· ≤ ·)) : ∀ q ∈ l, ‖q.1‖ ≤ ‖p.1‖ := by
  subst hl
  rw [List.map_append, List.pairwise_append] at hs
  intro q hq
  rcases List.mem_append.1 hq with hq | hq
  · exact hs.2.2 _ (List.mem_map_of_mem hq) _ (by simp)
  · rw [List.mem_singleton.1 hq]

/-- **C69**: one is among the returned values, and the last value has magnitude one. -/
theorem C69_one (hn : n ≠ 0) (e : EigenRoutine) (H : Option (Op n)) (hH : ∀ h, H = some h → h.IsHermitian) (As : List (Op n))
    (rates : Option (List ℝ)) (hr : ∀ rs, rates = some rs → ∀ r ∈ rs, 0 ≤ r) (double : Bool) (l : List (ℂ × Ket (n * n)))
    (h : steadyState e H (some (As.map .op)) rates double = some (.inr l)) :
    (∃ p ∈ l, p.1 = 1) ∧ ∃ l' p, l = l' ++ [p] ∧ ‖p.1‖ = 1 := by
  have hd := C69_unit_disc e H hH As rates hr double l h
  obtain ⟨L, _, hc, hs, _, _⟩ := steady_setup e H hH As rates hr double l h
  have h1 := (hc 1 zero_le_one).one_root hn
  rw [← hs.roots, Multiset.mem_coe, List.mem_map] at h1
  obtain ⟨q, hq, hq1⟩ := h1
  refine ⟨⟨q, hq, hq1⟩, ?_⟩
  rcases List.eq_nil_or_concat l with rfl | ⟨l', p, hl⟩
  · simp at hq
  · rw [List.concat_eq_append] at hl
    refine ⟨l', p, hl, le_antisymm (hd p (by rw [hl]; simp)) ?_⟩
    have := last_norm hl hs.sorted q hq
    rwa [hq1, norm_one] at this

/-- **C69**: there is a density matrix that the evolution leaves unchanged for all times. -/
theorem C69_exists (hn : n ≠ 0) (e : EigenRoutine) (H : Option (Op n)) (hH : ∀ h, H = some h → h.IsHermitian) (As : List (Op n))
    (rates : Option (List ℝ)) (hr : ∀ rs, rates = some rs → ∀ r ∈ rs, 0 ≤ r) (double : Bool) (l : List (ℂ × Ket (n * n)))
    (h : steadyState e H (some (As.map .op)) rates double = some (.inr l)) :
    ∃ rho : Op n, rho.PosSemidef ∧ rho.trace = 1 ∧ ∀ (t : ℝ) (W : Op (n * n)), 0 ≤ t →
      LiouvillianExp H t (some (As.map .op)) rates true double = some (.super W) → vec2Mat (W * mat2Vec rho) = rho := by
  obtain ⟨L, hL, hc, _, hk, hh⟩ := steady_setup e H hH As rates hr double l h
  obtain ⟨rho, h1, h2, h3⟩ := exists_steady L hn hk hh hc
  refine ⟨rho, h1, h2, fun t W ht hW => ?_⟩
  rw [hL t] at hW
  simp only [Option.some.injEq, Propagator.super.injEq] at hW
  rw [← hW]
  exact h3 t ht

/-- The last value is the only one with magnitude one. -/
def OnlyLast {m : ℕ} (l : List (ℂ × Ket m)) : Prop := ∃ l' p, l = l' ++ [p] ∧ ∀ q ∈ l', ‖q.1‖ < 1

/-- The last eigenvector, as a matrix divided by its trace. -/
noncomputable def lastState (l : List (ℂ × Ket (n * n))) : Op n :=
  match l.getLast? with
  | none => 0
  | some p => (vec2Mat p.2).trace⁻¹ • vec2Mat p.2

theorem onlyLast_roots {W : Op (n * n)} (hW : Channel W) (hn : n ≠ 0) {l l' : List (ℂ × Ket (n * n))} {p : ℂ × Ket (n * n)}
    (hs : SortedByMagnitude W l) (hl : l = l' ++ [p]) (ho : ∀ q ∈ l', ‖q.1‖ < 1) :
    p.1 = 1 ∧ W.charpoly.rootMultiplicity 1 ≤ 1 ∧ ∀ c ∈ W.charpoly.roots, c ≠ 1 → ‖c‖ < 1 := by
  have h1 := hW.one_root hn
  have hp : p.1 = 1 := by
    rw [← hs.roots, Multiset.mem_coe, List.mem_map] at h1
    obtain ⟨q, hq, hq1⟩ := h1
    rw [hl] at hq
    rcases List.mem_append.1 hq with hq | hq
    · have := ho q hq
      rw [hq1, norm_one] at this
      exact absurd this (lt_irrefl _)
    · rw [← List.mem_singleton.1 hq, hq1]
  refine ⟨hp, ?_, ?_⟩
  · classical
    rw [← Polynomial.count_roots, ← hs.roots, Multiset.coe_count, hl, List.map_append, List.count_append]
    have h0 : List.count (1 : ℂ) (l'.map Prod.fst) = 0 := by
      rw [List.count_eq_zero]
      intro hm
      obtain ⟨q, hq, hq1⟩ := List.mem_map.1 hm
      have := ho q hq
      rw [hq1, norm_one] at this
      exact absurd this (lt_irrefl _)
    rw [h0, zero_add]
    simpa using List.count_le_length (a := (1 : ℂ)) (l := [p.1])
  · intro c hc hc1
    rw [← hs.roots, Multiset.mem_coe, List.mem_map] at hc
    obtain ⟨q, hq, rfl⟩ := hc
    rw [hl] at hq
    rcases List.mem_append.1 hq with hq | hq
    · exact ho q hq
    · rw [List.mem_singleton.1 hq] at hc1
      exact absurd hp hc1

/-- **C69**: if only the last value has magnitude one, then that value is one, its eigenvector has a trace, divided by the trace it is a
density matrix that no evolution changes, and there is no other such density matrix. -/
theorem C69_steady (hn : n ≠ 0) (e : EigenRoutine) (H : Option (Op n)) (hH : ∀ h, H = some h → h.IsHermitian) (As : List (Op n))
    (rates : Option (List ℝ)) (hr : ∀ rs, rates = some rs → ∀ r ∈ rs, 0 ≤ r) (double : Bool) (l : List (ℂ × Ket (n * n)))
    (h : steadyState e H (some (As.map .op)) rates double = some (.inr l)) (ho : OnlyLast l) :
    (∃ p, l.getLast? = some p ∧ p.1 = 1 ∧ (vec2Mat p.2).trace ≠ 0) ∧ (lastState l).PosSemidef ∧ (lastState l).trace = 1 ∧
    (∀ (t : ℝ) (W : Op (n * n)), 0 ≤ t → LiouvillianExp H t (some (As.map .op)) rates true double = some (.super W) →
      vec2Mat (W * mat2Vec (lastState l)) = lastState l) ∧
    ∀ sigma : Op n, sigma.trace = 1 → (∀ W, LiouvillianExp H 1 (some (As.map .op)) rates true double = some (.super W) →
      vec2Mat (W * mat2Vec sigma) = sigma) → sigma = lastState l := by
  obtain ⟨L, hL, hc, hs, hk, hh⟩ := steady_setup e H hH As rates hr double l h
  obtain ⟨rho, h1, h2, h3⟩ := exists_steady L hn hk hh hc
  obtain ⟨l', p, hl, ho⟩ := ho
  have hlast : l.getLast? = some p := by rw [hl]; simp
  obtain ⟨hp, hm, _⟩ := onlyLast_roots (hc 1 zero_le_one) hn hs hl ho
  obtain ⟨hv, hv0⟩ := hs.vectors p (by rw [hl]; simp)
  rw [hp, one_smul] at hv
  have hfix : ∀ X : Op n, act (exp (((1 : ℝ) : ℂ) • L)) X = X → ∃ a : ℂ, X = a • vec2Mat p.2 := by
    intro X hX
    obtain ⟨a, ha⟩ := fixed_proportional _ hm p.2 (mat2Vec X) hv (by rw [← mat2Vec_act, hX]) hv0
    exact ⟨a, by rw [← vec2Mat_smul, ← ha, C39_vec2Mat_mat2Vec]⟩
  have huniq : ∀ X : Op n, X.trace = 1 → act (exp (((1 : ℝ) : ℂ) • L)) X = X →
      (vec2Mat p.2).trace ≠ 0 ∧ X = lastState l := by
    intro X ht hX
    obtain ⟨a, rfl⟩ := hfix X hX
    rw [Matrix.trace_smul, smul_eq_mul] at ht
    refine ⟨right_ne_zero_of_mul_eq_one ht, ?_⟩
    rw [lastState, hlast, eq_inv_of_mul_eq_one_left ht]
  obtain ⟨ht, hrho⟩ := huniq rho h2 (h3 1 zero_le_one)
  rw [hrho] at h1 h2 h3
  refine ⟨⟨p, hlast, hp, ht⟩, h1, h2, fun t W ht hW => ?_, fun sigma hs1 hs2 => ?_⟩
  · rw [hL t] at hW
    simp only [Option.some.injEq, Propagator.super.injEq] at hW
    rw [← hW]
    exact h3 t ht
  · exact (huniq sigma hs1 (hs2 _ (hL 1))).2

section
open scoped Matrix.Norms.Operator

/-- **C69**: and then every trajectory of trace one tends to it, whatever the state it starts in. -/
theorem C69_attracts (hn : n ≠ 0) (e : EigenRoutine) (H : Option (Op n)) (hH : ∀ h, H = some h → h.IsHermitian) (As : List (Op n))
    (rates : Option (List ℝ)) (hr : ∀ rs, rates = some rs → ∀ r ∈ rs, 0 ≤ r) (double : Bool) (l : List (ℂ × Ket (n * n)))
    (h : steadyState e H (some (As.map .op)) rates double = some (.inr l)) (ho : OnlyLast l) (sigma : Op n) (h1 : sigma.trace = 1)
    (W : ℝ → Op (n * n)) (hW : ∀ t, LiouvillianExp H t (some (As.map .op)) rates true double = some (.super (W t))) :
    Tendsto (fun t : ℝ => vec2Mat (W t * mat2Vec sigma)) atTop (𝓝 (lastState l)) := by
  obtain ⟨_, _, htr, hfix, _⟩ := C69_steady hn e H hH As rates hr double l h ho
  obtain ⟨L, hL, hc, hs, hk, hh⟩ := steady_setup e H hH As rates hr double l h
  obtain ⟨l', p, hl, ho⟩ := ho
  obtain ⟨hp, hm, hlt⟩ := onlyLast_roots (hc 1 zero_le_one) hn hs hl ho
  have hWt : ∀ t, W t = exp ((t : ℂ) • L) := by
    intro t
    have := (hL t).symm.trans (hW t)
    simp only [Option.some.injEq, Propagator.super.injEq] at this
    exact this.symm
  set rho := lastState l with hrho
  have hf1 : ∀ t : ℝ, 0 ≤ t → exp ((t : ℂ) • L) * mat2Vec rho = mat2Vec rho := by
    intro t ht
    have h0 := hfix t _ ht (hL t)
    have h2 := congrArg mat2Vec h0
    rwa [C39_mat2Vec_vec2Mat] at h2
  have hk := (hc 1 zero_le_one).attracts htr (hfix 1 _ zero_le_one (hL 1)) hm hlt sigma
  rw [h1, one_smul] at hk
  -- vector form, with the difference tending to zero along whole numbers
  set d : Ket (n * n) := mat2Vec sigma - mat2Vec rho with hd
  have hcv : Continuous (fun X : Op n => mat2Vec X) := by
    refine continuous_matrix fun i j => ?_
    simp only [mat2Vec]
    exact continuous_id.matrix_elem _ _
  have hz : Tendsto (fun k : ℕ => exp (((1 : ℝ) : ℂ) • L) ^ k * d) atTop (𝓝 0) := by
    have h2 := ((hcv.tendsto _).comp hk).sub_const (mat2Vec rho)
    rw [sub_self] at h2
    refine h2.congr fun k => ?_
    rw [Function.comp, mat2Vec_act, hd, Matrix.mul_sub]
    congr 1
    have := pow_eigen _ (mat2Vec rho) 1 (by rw [hf1 1 zero_le_one, one_smul]) k
    rw [one_pow, one_smul] at this
    exact this.symm
  have hzt : Tendsto (fun t : ℝ => exp ((t : ℂ) • L) * d) atTop (𝓝 0) := by
    have hz1 := tendsto_zero_iff_norm_tendsto_zero.1 hz
    have hz2 : Tendsto (fun t : ℝ => Real.exp ‖L‖ * ‖exp (((1 : ℝ) : ℂ) • L) ^ ⌊t⌋₊ * d‖) atTop (𝓝 0) := by
      have := (hz1.comp (tendsto_nat_floor_atTop (α := ℝ))).const_mul (Real.exp ‖L‖)
      rwa [mul_zero] at this
    refine tendsto_zero_iff_norm_tendsto_zero.2 (squeeze_zero' (Eventually.of_forall fun t => norm_nonneg _) ?_ hz2)
    filter_upwards [eventually_ge_atTop 0] with t ht
    have hfl := Nat.floor_le ht
    have hfl2 := (Nat.lt_floor_add_one t).le
    have hsplit : exp ((t : ℂ) • L) = exp (((t - ⌊t⌋₊ : ℝ) : ℂ) • L) * exp (((1 : ℝ) : ℂ) • L) ^ ⌊t⌋₊ := by
      rw [← Matrix.exp_nsmul, ← Matrix.exp_add_of_commute]
      · congr 1
        rw [← Nat.cast_smul_eq_nsmul ℂ, smul_smul, ← add_smul]
        congr 1
        push_cast
        ring
      · exact (((Commute.refl L).smul_left _).smul_right _).smul_right _
    rw [hsplit, Matrix.mul_assoc]
    refine (linfty_opNorm_mul _ _).trans (mul_le_mul_of_nonneg_right ?_ (norm_nonneg _))
    have hb : Nonempty (Fin (n * n)) := ⟨⟨0, Nat.mul_pos (Nat.pos_of_ne_zero hn) (Nat.pos_of_ne_zero hn)⟩⟩
    have : NormOneClass (Op (n * n)) := Matrix.linfty_opNormOneClass
    refine (norm_exp_le _).trans (Real.exp_le_exp.2 ?_)
    rw [norm_smul, Complex.norm_real, Real.norm_eq_abs, abs_of_nonneg (by linarith)]
    exact mul_le_of_le_one_left (norm_nonneg _) (by linarith)
  have hcm : Continuous (fun v : Ket (n * n) => vec2Mat v) := by
    refine continuous_matrix fun i j => ?_
    simp only [vec2Mat]
    exact continuous_id.matrix_elem _ _
  have h3 := (hcm.tendsto _).comp (hzt.add_const (mat2Vec rho))
  rw [zero_add, C39_vec2Mat_mat2Vec] at h3
  refine h3.congr' ?_
  filter_upwards [eventually_ge_atTop 0] with t ht
  rw [Function.comp, hWt, hd, Matrix.mul_sub, hf1 t ht, sub_add_cancel]

end

/-- If all density matrices tend to the same one, then so does every matrix, up to its trace. -/
theorem Channel.limit {W : Op (n * n)} {rho : Op n}
    (h : ∀ sigma : Op n, sigma.PosSemidef → sigma.trace = 1 → Tendsto (fun k : ℕ => act (W ^ k) sigma) atTop (𝓝 rho)) (X : Op n) :
    Tendsto (fun k : ℕ => act (W ^ k) X) atTop (𝓝 (X.trace • rho)) := by
  have hp : ∀ P : Op n, P.PosSemidef → Tendsto (fun k : ℕ => act (W ^ k) P) atTop (𝓝 (P.trace • rho)) := by
    intro P hP
    by_cases h0 : P.trace = 0
    · rw [h0, zero_smul, (PosSemidef.trace_eq_zero_iff hP).1 h0]
      refine tendsto_const_nhds.congr fun k => ?_
      have := act_map_smul (W ^ k) 0 (0 : Op n)
      rw [zero_smul, zero_smul] at this
      exact this.symm
    · have h1 := h (P.trace⁻¹ • P) (hP.smul (by
        have h3 := Complex.le_def.1 hP.trace_nonneg
        rw [show P.trace = ((P.trace.re : ℝ) : ℂ) from Complex.ext rfl (by simpa using h3.2.symm), ← Complex.ofReal_inv]
        exact Complex.zero_le_real.2 (inv_nonneg.2 h3.1))) (by rw [Matrix.trace_smul, smul_eq_mul, inv_mul_cancel₀ h0])
      have h2 := h1.const_smul P.trace
      refine h2.congr fun k => ?_
      rw [act_map_smul, smul_smul, mul_inv_cancel₀ h0, one_smul]
  obtain ⟨P, Q, R, S, hP, hQ, hR, hS, rfl⟩ := four_positive X
  have h1 := ((hp P hP).sub (hp Q hQ)).add (((hp R hR).sub (hp S hS)).const_smul Complex.I)
  have h2 : P.trace • rho - Q.trace • rho + Complex.I • (R.trace • rho - S.trace • rho) =
      (P - Q + Complex.I • (R - S)).trace • rho := by
    rw [Matrix.trace_add, Matrix.trace_smul, Matrix.trace_sub, Matrix.trace_sub, add_smul, sub_smul, smul_eq_mul, mul_smul, sub_smul]
  rw [h2] at h1
  refine h1.congr fun k => ?_
  rw [act_map_add, act_map_smul, act_map_sub, act_map_sub]

/-- Then one is the only eigenvalue of magnitude one, and a simple root. -/
theorem Channel.simple {W : Op (n * n)} (hW : Channel W) (hn : n ≠ 0) {rho : Op n}
    (h : ∀ sigma : Op n, sigma.PosSemidef → sigma.trace = 1 → Tendsto (fun k : ℕ => act (W ^ k) sigma) atTop (𝓝 rho)) :
    (∀ c ∈ W.charpoly.roots, ‖c‖ = 1 → c = 1) ∧ W.charpoly.rootMultiplicity 1 ≤ 1 := by
  have hlim := Channel.limit h
  have hv : ∀ v : Ket (n * n), Tendsto (fun k : ℕ => W ^ k * v) atTop (𝓝 ((vec2Mat v).trace • mat2Vec rho)) := by
    intro v
    have h1 := (continuous_mat2Vec.tendsto _).comp (hlim (vec2Mat v))
    rw [mat2Vec_smul] at h1
    refine h1.congr fun k => ?_
    rw [Function.comp, mat2Vec_act, C39_mat2Vec_vec2Mat]
  have hshift : ∀ v : Ket (n * n), Tendsto (fun k : ℕ => W ^ k * (W * v)) atTop (𝓝 ((vec2Mat v).trace • mat2Vec rho)) := by
    intro v
    refine ((tendsto_add_atTop_iff_nat 1).2 (hv v)).congr fun k => ?_
    rw [pow_succ, Matrix.mul_assoc]
  have hzero : ∀ v : Ket (n * n), W * v = v → Tendsto (fun k : ℕ => W ^ k * v) atTop (𝓝 0) → v = 0 := by
    intro v h1 h2
    refine tendsto_nhds_unique (tendsto_const_nhds.congr fun k => ?_) h2
    have := pow_eigen W v 1 (by rw [h1, one_smul]) k
    rw [one_pow, one_smul] at this
    exact this.symm
  have hWrho : W * mat2Vec rho = mat2Vec rho := by
    have hnn : (1 : Op n).trace ≠ 0 := by
      rw [Matrix.trace_one, Fintype.card_fin]
      exact_mod_cast hn
    have h1 : Tendsto (fun k : ℕ => W * (W ^ k * mat2Vec (1 : Op n))) atTop (𝓝 (W * ((1 : Op n).trace • mat2Vec rho))) := by
      have hcont : Continuous fun u : Ket (n * n) => W * u := continuous_const.matrix_mul continuous_id
      have h2 := hv (mat2Vec (1 : Op n))
      rw [C39_vec2Mat_mat2Vec] at h2
      exact (hcont.tendsto _).comp h2
    have h2 := hshift (mat2Vec (1 : Op n))
    rw [C39_vec2Mat_mat2Vec] at h2
    have h3 := tendsto_nhds_unique (h1.congr fun k => by
      rw [← Matrix.mul_assoc, ← pow_succ', pow_succ, Matrix.mul_assoc]) h2
    rw [Matrix.mul_smul] at h3
    exact smul_right_injective _ hnn h3
  constructor
  · intro c hc hc1
    obtain ⟨v, hv1, hv0⟩ := exists_eigenvector W c hc
    have h1 := hshift v
    have h2 := (hv v).const_smul c
    have h3 := tendsto_nhds_unique (h2.congr fun k => by
      rw [← Matrix.mul_smul, ← hv1]) h1
    by_contra hne
    have h4 : (vec2Mat v).trace • mat2Vec rho = 0 := by
      have h5 : (c - 1) • ((vec2Mat v).trace • mat2Vec rho) = 0 := by rw [sub_smul, one_smul, h3, sub_self]
      exact (smul_eq_zero.1 h5).resolve_left (sub_ne_zero.2 hne)
    have h6 := hv v
    rw [h4] at h6
    obtain ⟨i, j, hij⟩ : ∃ i j, v i j ≠ 0 := by
      by_contra hall
      push Not at hall
      exact hv0 (Matrix.ext hall)
    have h7 : Tendsto (fun k : ℕ => ‖(W ^ k * v) i j‖) atTop (𝓝 ‖(0 : Ket (n * n)) i j‖) :=
      ((((continuous_id (X := Ket (n * n))).matrix_elem i j).norm).tendsto _).comp h6
    have h8 := tendsto_nhds_unique (tendsto_const_nhds (x := ‖v i j‖) |>.congr fun k => by
      rw [pow_eigen W v c hv1, Matrix.smul_apply, smul_eq_mul, norm_mul, norm_pow, hc1, one_pow, one_mul]) h7
    rw [Matrix.zero_apply, norm_zero, norm_eq_zero] at h8
    exact hij h8
  · rw [← Matrix.charpoly_toLin', ← LinearMap.finrank_maxGenEigenspace_eq]
    refine finrank_le_one_iff.2 ?_
    have hrmem : (fun i => mat2Vec rho i 0) ∈ Module.End.maxGenEigenspace W.toLin' 1 := by
      rw [Module.End.mem_maxGenEigenspace]
      refine ⟨1, ?_⟩
      rw [pow_one, one_smul, LinearMap.sub_apply, Matrix.toLin'_apply, Module.End.one_apply, sub_eq_zero]
      funext i
      exact congrFun (congrFun hWrho i) 0
    refine ⟨⟨_, hrmem⟩, ?_⟩
    rintro ⟨x, hx⟩
    rw [Module.End.mem_maxGenEigenspace] at hx
    obtain ⟨m, hx⟩ := hx
    let X : Ket (n * n) := Matrix.of fun i _ => x i
    have hcol : ∀ (m : ℕ) (i : Fin (n * n)), ((W - 1) ^ m * X : Ket (n * n)) i 0 = ((W.toLin' - (1 : ℂ) • 1) ^ m) x i := by
      intro m
      induction m with
      | zero => intro i; simp [X]
      | succ m ih =>
        intro i
        rw [pow_succ', pow_succ', Matrix.mul_assoc, Module.End.mul_apply, one_smul, LinearMap.sub_apply, Matrix.sub_mul, Matrix.toLin'_apply,
          Matrix.one_mul, Matrix.sub_apply, Module.End.one_apply, Pi.sub_apply, ih, one_smul]
        congr 1
        rw [Matrix.mul_apply, Matrix.mulVec, dotProduct]
        refine Finset.sum_congr rfl fun j _ => ?_
        rw [ih, one_smul]
    have hX : (W - 1) ^ m * X = 0 := by
      ext i j
      rw [Subsingleton.elim j 0, hcol, hx]
      rfl
    set Y : Ket (n * n) := X - (vec2Mat X).trace • mat2Vec rho with hY
    have hYlim : Tendsto (fun k : ℕ => W ^ k * Y) atTop (𝓝 0) := by
      have h1 := (hv X).sub_const ((vec2Mat X).trace • mat2Vec rho)
      rw [sub_self] at h1
      refine h1.congr fun k => ?_
      rw [hY, Matrix.mul_sub, Matrix.mul_smul]
      congr 2
      have := pow_eigen W (mat2Vec rho) 1 (by rw [hWrho, one_smul]) k
      rw [one_pow, one_smul] at this
      exact this.symm
    have hYm : (W - 1) ^ (m + 1) * Y = 0 := by
      rw [hY, Matrix.mul_sub, Matrix.mul_smul]
      have h1 : (W - 1) ^ (m + 1) * X = 0 := by rw [pow_succ', Matrix.mul_assoc, hX, Matrix.mul_zero]
      have h2 : (W - 1) ^ (m + 1) * mat2Vec rho = 0 := by
        rw [pow_succ, Matrix.mul_assoc, Matrix.sub_mul, hWrho, Matrix.one_mul, sub_self, Matrix.mul_zero]
      rw [h1, h2, smul_zero, sub_zero]
    have hdown : ∀ j, (W - 1) ^ (j + 1) * Y = 0 → (W - 1) ^ j * Y = 0 := by
      intro j hj
      refine hzero _ ?_ ?_
      · rw [pow_succ', Matrix.mul_assoc, Matrix.sub_mul, Matrix.one_mul, sub_eq_zero] at hj
        exact hj
      · have hcont : Continuous fun u : Ket (n * n) => (W - 1) ^ j * u := continuous_const.matrix_mul continuous_id
        have h1 := (hcont.tendsto _).comp hYlim
        rw [Matrix.mul_zero] at h1
        refine h1.congr fun k => ?_
        have hcomm : Commute ((W - 1) ^ j) (W ^ k) :=
          (((Commute.refl W).sub_left (Commute.one_left W)).pow_left j).pow_right k
        rw [Function.comp, ← Matrix.mul_assoc, hcomm.eq, Matrix.mul_assoc]
    have hall : ∀ j, (W - 1) ^ j * Y = 0 → Y = 0 := by
      intro j
      induction j with
      | zero => intro hj; rwa [pow_zero, Matrix.one_mul] at hj
      | succ j ih => exact fun hj => ih (hdown j hj)
    have hY0 := hall _ hYm
    refine ⟨(vec2Mat X).trace, Subtype.ext (funext fun i => ?_)⟩
    rw [hY, sub_eq_zero] at hY0
    exact (congrFun (congrFun hY0 i) 0).symm

/-- **C69**: only the last value has magnitude one exactly if all density matrices evolve to the same one. -/
theorem C69_only_last_iff (hn : n ≠ 0) (e : EigenRoutine) (H : Option (Op n)) (hH : ∀ h, H = some h → h.IsHermitian) (As : List (Op n))
    (rates : Option (List ℝ)) (hr : ∀ rs, rates = some rs → ∀ r ∈ rs, 0 ≤ r) (double : Bool) (l : List (ℂ × Ket (n * n)))
    (h : steadyState e H (some (As.map .op)) rates double = some (.inr l))
    (W : ℝ → Op (n * n)) (hW : ∀ t, LiouvillianExp H t (some (As.map .op)) rates true double = some (.super (W t))) :
    OnlyLast l ↔ ∃ rho : Op n, ∀ sigma : Op n, sigma.PosSemidef → sigma.trace = 1 →
      Tendsto (fun t : ℝ => vec2Mat (W t * mat2Vec sigma)) atTop (𝓝 rho) := by
  constructor
  · exact fun ho => ⟨lastState l, fun sigma _ h1 => C69_attracts hn e H hH As rates hr double l h ho sigma h1 W hW⟩
  · rintro ⟨rho, hlim⟩
    have hd := C69_unit_disc e H hH As rates hr double l h
    obtain ⟨_, l', p, hl, hp⟩ := C69_one hn e H hH As rates hr double l h
    obtain ⟨L, hL, hc, hs, hk, hh⟩ := steady_setup e H hH As rates hr double l h
    have hWt : ∀ t, W t = exp ((t : ℂ) • L) := by
      intro t
      have := (hL t).symm.trans (hW t)
      simp only [Option.some.injEq, Propagator.super.injEq] at this
      exact this.symm
    obtain ⟨h1, h2⟩ := (hc 1 zero_le_one).simple hn (rho := rho) (by
      intro sigma hp1 ht1
      refine ((hlim sigma hp1 ht1).comp tendsto_natCast_atTop_atTop).congr fun k => ?_
      rw [Function.comp, hWt, ← Matrix.exp_nsmul, ← Nat.cast_smul_eq_nsmul ℂ, Complex.ofReal_one, one_smul, Complex.ofReal_natCast]
      rfl)
    refine ⟨l', p, hl, fun q hq => ?_⟩
    by_contra hq1
    have hql : q ∈ l := by rw [hl]; exact List.mem_append_left _ hq
    have hpl : p ∈ l := by rw [hl]; simp
    have hroot : ∀ x ∈ l, x.1 ∈ (exp (((1 : ℝ) : ℂ) • L)).charpoly.roots := by
      intro x hx
      rw [← hs.roots, Multiset.mem_coe]
      exact List.mem_map_of_mem hx
    have hq2 := h1 q.1 (hroot q hql) (le_antisymm (hd q hql) (not_lt.1 hq1))
    have hp2 := h1 p.1 (hroot p hpl) hp
    classical
    rw [← Polynomial.count_roots, ← hs.roots, Multiset.coe_count, hl, List.map_append, List.count_append] at h2
    have h3 : 1 ≤ List.count (1 : ℂ) (l'.map Prod.fst) := by
      rw [List.one_le_count_iff, ← hq2]
      exact List.mem_map_of_mem hq
    have h4 : List.count (1 : ℂ) ([p].map Prod.fst) = 1 := by simp [hp2]
    omega

/-! ## The routine exists, and may return any eigenvectors -/

theorem exists_sorted {m : ℕ} (M : Op m) : ∃ l : List (ℂ × Ket m), SortedByMagnitude M l := by
  classical
  have hex : ∀ c : ℂ, ∃ v : Ket m, c ∈ M.charpoly.roots → M * v = c • v ∧ v ≠ 0 := by
    intro c
    by_cases hc : c ∈ M.charpoly.roots
    · obtain ⟨v, hv⟩ := exists_eigenvector M c hc
      exact ⟨v, fun _ => hv⟩
    · exact ⟨0, fun h => absurd h hc⟩
  choose vec hvec using hex
  let le : ℂ → ℂ → Bool := fun a b => decide (‖a‖ ≤ ‖b‖)
  refine ⟨(M.charpoly.roots.toList.mergeSort le).map fun c => (c, vec c), ⟨?_, ?_, ?_⟩⟩
  · rw [List.map_map]
    have : (Prod.fst ∘ fun c => (c, vec c)) = id := rfl
    rw [this, List.map_id, Multiset.coe_eq_coe.2 (List.mergeSort_perm _ _), Multiset.coe_toList]
  · intro p hp
    obtain ⟨c, hc, rfl⟩ := List.mem_map.1 hp
    rw [List.mem_mergeSort, Multiset.mem_toList] at hc
    exact hvec c hc
  · rw [List.map_map, List.pairwise_map]
    have := List.pairwise_mergeSort (le := le) (fun a b c h1 h2 => by
      simp only [le, decide_eq_true_eq] at *; exact h1.trans h2) (fun a b => by
      simp only [le, Bool.or_eq_true, decide_eq_true_eq]; exact le_total _ _) M.charpoly.roots.toList
    exact this.imp fun h => by simpa [le] using h

/-- A routine with a prescribed admissible output for one matrix. -/
theorem exists_routine {m : ℕ} (M : Op m) (l : List (ℂ × Ket m)) (h : SortedByMagnitude M l) : ∃ e : EigenRoutine, e.eig M = l := by
  have hex : ∀ (k : ℕ) (M' : Op k), ∃ l' : List (ℂ × Ket k), SortedByMagnitude M' l' ∧ ∀ hk : k = m, (hk ▸ M') = M → (hk ▸ l') = l := by
    intro k M'
    by_cases hk : k = m
    · subst hk
      by_cases hM : M' = M
      · subst hM
        exact ⟨l, h, fun _ _ => rfl⟩
      · obtain ⟨l', hl'⟩ := exists_sorted M'
        exact ⟨l', hl', fun _ h2 => absurd h2 hM⟩
    · obtain ⟨l', hl'⟩ := exists_sorted M'
      exact ⟨l', hl', fun h2 => absurd h2 hk⟩
  choose f hf using hex
  exact ⟨⟨fun {k} M' => f k M', fun {k} M' => (hf k M').1⟩, (hf m M).2 rfl rfl⟩

/-- Independent eigenvectors determine the roots. -/
theorem roots_of_eigen (W : Op (n * n)) (c : Fin (n * n) → ℂ) (V : Fin (n * n) → Op n) (h : ∀ j, act W (V j) = c j • V j)
    (hi : ∀ x : Fin (n * n) → ℂ, ∑ j, x j • V j = 0 → x = 0) : W.charpoly.roots = Finset.univ.val.map c := by
  let S : Op (n * n) := Matrix.of fun i j => mat2Vec (V j) i 0
  have hS : W * S = S * diagonal c := by
    ext i j
    rw [mul_diagonal]
    have h1 := congrFun (congrFun (congrArg mat2Vec (h j)) i) 0
    rw [mat2Vec_act, mat2Vec_smul, Matrix.smul_apply, smul_eq_mul] at h1
    exact h1.trans (mul_comm _ _)
  have hdet : S.det ≠ 0 := by
    intro h0
    obtain ⟨x, hx0, hx⟩ := Matrix.exists_mulVec_eq_zero_iff.2 h0
    apply hx0
    refine hi x ?_
    rw [← C39_vec2Mat_mat2Vec (∑ j, x j • V j)]
    have h2 : mat2Vec (∑ j, x j • V j) = 0 := by
      ext i k
      rw [Subsingleton.elim k 0]
      have h3 := congrFun hx i
      simp only [mulVec, dotProduct, S, of_apply, mat2Vec, transpose_apply, Pi.zero_apply] at h3
      simp only [mat2Vec, of_apply, transpose_apply, Matrix.sum_apply, Matrix.smul_apply, smul_eq_mul, Matrix.zero_apply]
      rw [← h3]
      exact Finset.sum_congr rfl fun j _ => mul_comm _ _
    rw [h2]
    ext i k
    simp [vec2Mat]
  have hu : _root_.IsUnit S := (Matrix.isUnit_iff_isUnit_det S).2 (isUnit_iff_ne_zero.2 hdet)
  obtain ⟨U, hU⟩ := hu
  have hW : W = U.val * diagonal c * U⁻¹.val := by
    rw [hU, ← hS, ← hU, Matrix.mul_assoc, Units.mul_inv, Matrix.mul_one]
  rw [hW, Matrix.coe_units_inv, Matrix.charpoly_units_conj, Matrix.charpoly_diagonal, Polynomial.roots_prod _ _ (by
    simp [Finset.prod_ne_zero_iff, Polynomial.X_sub_C_ne_zero])]
  simp

theorem onlyLast_of_roots (hn : n ≠ 0) (e : EigenRoutine) (H : Option (Op n)) (hH : ∀ h, H = some h → h.IsHermitian) (As : List (Op n))
    (rates : Option (List ℝ)) (hr : ∀ rs, rates = some rs → ∀ r ∈ rs, 0 ≤ r) (double : Bool) (l : List (ℂ × Ket (n * n)))
    (h : steadyState e H (some (As.map .op)) rates double = some (.inr l)) (s : List ℂ) (hs : ∀ c ∈ s, ‖c‖ < 1)
    (hroots : Multiset.ofList (l.map Prod.fst) = Multiset.ofList (1 :: s)) : OnlyLast l := by
  obtain ⟨_, l', p, hl, hp⟩ := C69_one hn e H hH As rates hr double l h
  refine ⟨l', p, hl, fun q hq => ?_⟩
  have hp1 : p.1 = 1 := by
    have : p.1 ∈ Multiset.ofList (1 :: s) := by
      rw [← hroots, Multiset.mem_coe, hl]; simp
    rcases List.mem_cons.1 (Multiset.mem_coe.1 this) with h1 | h1
    · exact h1
    · exact absurd (hs _ h1) (by rw [hp]; exact lt_irrefl _)
  rw [hl, List.map_append, List.map_singleton, hp1, ← Multiset.coe_add, add_comm, Multiset.coe_singleton,
    Multiset.singleton_add, ← Multiset.cons_coe, Multiset.cons_inj_right] at hroots
  exact hs _ (Multiset.mem_coe.1 (hroots ▸ Multiset.mem_coe.2 (List.mem_map_of_mem hq)))

/-- **C69** at work: a decaying two level system. Whatever the eigenvectors the routine picks, the last one is the ground state. -/
theorem C69_decay (e : EigenRoutine) (r : ℝ) (hr : 0 < r) : ∃ l,
    steadyState e (n := 2) none (some ([!![0, 1; 0, 0]].map .op)) (some [r]) = some (.inr l) ∧ OnlyLast l ∧ lastState l = !![1, 0; 0, 0] := by
  refine ⟨_, rfl, ?_⟩
  set L : Op (2 * 2) := hamPart none + (r : ℂ) • collapsePart false (Collapse.op (!![0, 1; 0, 0] : Op 2)) with hL
  set W : Op (2 * 2) := exp (((1 : ℝ) : ℂ) • L) with hWd
  have hst : steadyState e (n := 2) none (some ([!![0, 1; 0, 0]].map .op)) (some [r]) = some (.inr (e.eig W)) := rfl
  have hact : ∀ X : Op 2, act L X = (r : ℂ) • (!![0, 1; 0, 0] * X * !![0, 0; 1, 0]
      - (1 / 2 : ℂ) • (!![0, 0; 0, 1] * X + X * !![0, 0; 0, 1])) := by
    intro X
    have hh : (!![0, 1; 0, 0] : Op 2)ᴴ = !![0, 0; 1, 0] := by
      ext i j; fin_cases i <;> fin_cases j <;> simp [conjTranspose_apply]
    have hm : (!![0, 0; 1, 0] * !![0, 1; 0, 0] : Op 2) = !![0, 0; 0, 1] := by
      ext i j; fin_cases i <;> fin_cases j <;> simp [Matrix.mul_apply, Fin.sum_univ_two]
    rw [hL, hamPart, zero_add, act_smul, collapsePart, act_dissipator, hh, hm]
    simp
  have hexp : ∀ (X : Op 2) (c : ℂ), act L X = c • X → act W X = Complex.exp c • X := by
    intro X c hX
    have h1 : (((1 : ℝ) : ℂ) • L) * mat2Vec X = c • mat2Vec X := by
      rw [Complex.ofReal_one, one_smul, ← mat2Vec_act, hX, mat2Vec_smul]
    rw [act, hWd, exp_mul_eigen _ _ _ h1, vec2Mat_smul, C39_vec2Mat_mat2Vec]
  have h0 : act W !![1, 0; 0, 0] = Complex.exp 0 • (!![1, 0; 0, 0] : Op 2) := by
    refine hexp _ _ ?_
    rw [hact]
    ext i j; fin_cases i <;> fin_cases j <;> simp [Matrix.mul_apply, Fin.sum_univ_two]
  have h1 : act W !![0, 1; 0, 0] = Complex.exp (-r / 2) • (!![0, 1; 0, 0] : Op 2) := by
    refine hexp _ _ ?_
    rw [hact]
    ext i j; fin_cases i <;> fin_cases j <;> simp [Matrix.mul_apply, Fin.sum_univ_two]
    ring
  have h2 : act W !![0, 0; 1, 0] = Complex.exp (-r / 2) • (!![0, 0; 1, 0] : Op 2) := by
    refine hexp _ _ ?_
    rw [hact]
    ext i j; fin_cases i <;> fin_cases j <;> simp [Matrix.mul_apply, Fin.sum_univ_two]
    ring
  have h3 : act W !![-1, 0; 0, 1] = Complex.exp (-r) • (!![-1, 0; 0, 1] : Op 2) := by
    refine hexp _ _ ?_
    rw [hact]
    ext i j; fin_cases i <;> fin_cases j <;> simp [Matrix.mul_apply, Fin.sum_univ_two]
    norm_num
  have hroots : W.charpoly.roots = Multiset.ofList (1 :: [Complex.exp (-r / 2), Complex.exp (-r / 2), Complex.exp (-r)]) := by
    have := roots_of_eigen W (![Complex.exp 0, Complex.exp (-r / 2), Complex.exp (-r / 2), Complex.exp (-r)] : Fin 4 → ℂ)
      (![!![1, 0; 0, 0], !![0, 1; 0, 0], !![0, 0; 1, 0], !![-1, 0; 0, 1]] : Fin 4 → Op 2) (by
        intro j
        have hj : j = (0 : Fin 4) ∨ j = (1 : Fin 4) ∨ j = (2 : Fin 4) ∨ j = (3 : Fin 4) := by
          revert j; decide
        rcases hj with rfl | rfl | rfl | rfl
        · exact h0
        · exact h1
        · exact h2
        · exact h3) (by
        intro x hx
        change (∑ j : Fin 4, x j • (![!![1, 0; 0, 0], !![0, 1; 0, 0], !![0, 0; 1, 0], !![-1, 0; 0, 1]] : Fin 4 → Op 2) j) = 0 at hx
        rw [Fin.sum_univ_four] at hx
        have e00 := congrFun (congrFun hx 0) 0
        have e01 := congrFun (congrFun hx 0) 1
        have e10 := congrFun (congrFun hx 1) 0
        have e11 := congrFun (congrFun hx 1) 1
        simp at e00 e01 e10 e11
        rw [e11] at e00
        simp at e00
        funext j
        have hj : j = (0 : Fin 4) ∨ j = (1 : Fin 4) ∨ j = (2 : Fin 4) ∨ j = (3 : Fin 4) := by
          revert j; decide
        rcases hj with rfl | rfl | rfl | rfl
        · exact e00
        · exact e01
        · exact e10
        · exact e11)
    rw [this, ← Complex.exp_zero]
    rfl
  have hherm : ∀ h : Op 2, (none : Option (Op 2)) = some h → h.IsHermitian := by simp
  have hrs : ∀ rs, some [r] = some rs → ∀ x ∈ rs, 0 ≤ x := by
    rintro rs ⟨⟩ x hx
    rw [List.mem_singleton.1 hx]
    exact hr.le
  have ho : OnlyLast (e.eig W) := by
    refine onlyLast_of_roots two_ne_zero e none hherm [!![0, 1; 0, 0]] (some [r]) hrs false _ hst
      [Complex.exp (-r / 2), Complex.exp (-r / 2), Complex.exp (-r)] ?_ ?_
    · have g1 : ‖Complex.exp (-r / 2)‖ < 1 := by
        rw [Complex.norm_exp]
        have : ((-r / 2 : ℂ)).re = -(r / 2) := by
          rw [show (-r / 2 : ℂ) = ((-(r / 2) : ℝ) : ℂ) by push_cast; ring, Complex.ofReal_re]
        rw [this, Real.exp_lt_one_iff]
        linarith
      have g2 : ‖Complex.exp (-r)‖ < 1 := by
        rw [Complex.norm_exp, Complex.neg_re, Complex.ofReal_re, Real.exp_lt_one_iff]
        linarith
      intro c hc
      simp only [List.mem_cons, List.not_mem_nil, or_false] at hc
      rcases hc with rfl | rfl | rfl
      · exact g1
      · exact g1
      · exact g2
    · rw [(e.spec W).roots, hroots]
  refine ⟨ho, ?_⟩
  obtain ⟨_, _, _, _, hu⟩ := C69_steady two_ne_zero e none hherm [!![0, 1; 0, 0]] (some [r]) hrs false _ hst ho
  refine (hu !![1, 0; 0, 0] (by simp [Matrix.trace, Fin.sum_univ_two]) ?_).symm
  intro V hV
  have hV' : V = W := by
    have h5 : LiouvillianExp (n := 2) none 1 (some ([!![0, 1; 0, 0]].map .op)) (some [r]) true false = some (.super W) := rfl
    rw [h5] at hV
    simp only [Option.some.injEq, Propagator.super.injEq] at hV
    exact hV.symm
  rw [hV']
  have := h0
  rw [Complex.exp_zero, one_smul] at this
  exact this

/-- The even superposition decays to the ground state. -/
example (e : EigenRoutine) (W : ℝ → Op (2 * 2))
    (hW : ∀ t, LiouvillianExp (n := 2) none t (some ([!![0, 1; 0, 0]].map .op)) (some [3]) true false = some (.super (W t))) :
    Tendsto (fun t : ℝ => vec2Mat (W t * mat2Vec (!![1 / 2, 1 / 2; 1 / 2, 1 / 2] : Op 2))) atTop (𝓝 !![1, 0; 0, 0]) := by
  obtain ⟨l, h1, h2, h3⟩ := C69_decay e 3 (by norm_num)
  have := C69_attracts two_ne_zero e none (by simp) [!![0, 1; 0, 0]] (some [3]) (by rintro rs ⟨⟩ x hx; simp at hx; rw [hx]; norm_num)
    false l h1 h2 !![1 / 2, 1 / 2; 1 / 2, 1 / 2] (by simp [Matrix.trace, Fin.sum_univ_two]; norm_num) W hW
  rwa [h3] at this

/-- Such a routine exists, so the statements above are not empty. -/
example : Nonempty EigenRoutine := by
  obtain ⟨l, hl⟩ := exists_sorted (0 : Op 1)
  obtain ⟨e, _⟩ := exists_routine _ l hl
  exact ⟨e⟩

/-- **C69 (closed systems).** Without collapse operators all `n` values have magnitude one, and the state of every returned vector is
unchanged after a whole number of time units. -/
theorem C69_closed (e : EigenRoutine) (H : Op n) (hH : H.IsHermitian) (rates : Option (List ℝ)) (double : Bool) :
    ∃ l, steadyState e (some H) none rates double = some (.inl l) ∧ l.length = n ∧ ∀ p ∈ l, ‖p.1‖ = 1 ∧
      ∀ k : ℕ, unitaryOp H k * (p.2 * hc p.2) * hc (unitaryOp H k) = p.2 * hc p.2 := by
  refine ⟨_, rfl, ?_, ?_⟩
  · have h1 := congrArg Multiset.card (e.spec (unitaryOp H 1)).roots
    rw [Multiset.coe_card, List.length_map, ← (IsAlgClosed.splits (unitaryOp H 1).charpoly).natDegree_eq_card_roots,
      Matrix.charpoly_natDegree_eq_dim, Fintype.card_fin] at h1
    exact h1
  · intro p hp
    obtain ⟨h1, h2⟩ := (e.spec (unitaryOp H 1)).vectors p hp
    have hu := (C41_unitary H hH 1).1
    rw [hc_eq] at hu
    have h3 : (star p.1 * p.1) • (p.2ᴴ * p.2) = p.2ᴴ * p.2 := by
      have h4 : (unitaryOp H 1 * p.2)ᴴ * (unitaryOp H 1 * p.2) = p.2ᴴ * p.2 := by
        rw [conjTranspose_mul, Matrix.mul_assoc, ← Matrix.mul_assoc _ _ p.2, hu, Matrix.one_mul]
      rw [h1, conjTranspose_smul, Matrix.smul_mul, Matrix.mul_smul, smul_smul] at h4
      exact h4
    have h5 : p.2ᴴ * p.2 ≠ 0 := fun h => h2 (conjTranspose_mul_self_eq_zero.1 h)
    have h6 : star p.1 * p.1 = 1 := by
      have h7 : (star p.1 * p.1 - 1) • (p.2ᴴ * p.2) = 0 := by rw [sub_smul, h3, one_smul, sub_self]
      exact sub_eq_zero.1 ((smul_eq_zero.1 h7).resolve_right h5)
    have hnorm : ‖p.1‖ = 1 := by
      have h7 := congrArg norm h6
      rw [norm_mul, norm_star, norm_one] at h7
      nlinarith [norm_nonneg p.1]
    refine ⟨hnorm, fun k => ?_⟩
    have hk : unitaryOp H k = unitaryOp H 1 ^ k := by
      rw [unitaryOp, unitaryOp, ← Matrix.exp_nsmul, ← Nat.cast_smul_eq_nsmul ℂ, Complex.ofReal_one, one_smul, Complex.ofReal_natCast]
    have h8 : unitaryOp H k * p.2 = p.1 ^ k • p.2 := by rw [hk, pow_eigen _ _ _ h1]
    rw [hc_eq, hc_eq, ← Matrix.mul_assoc, h8, Matrix.mul_assoc, ← conjTranspose_mul, h8, conjTranspose_smul, Matrix.smul_mul,
      Matrix.mul_smul, smul_smul, star_pow, ← mul_pow, mul_comm p.1, h6, one_pow, one_smul]

/-- **C69 (closed systems).** Between whole numbers it may change: energies that differ by `2π` look alike after one time unit. -/
theorem C69_closed_alias : ∃ (e : EigenRoutine) (H : Op 2) (l : List (ℂ × Ket 2)), H.IsHermitian ∧
    steadyState e (some H) none none = some (.inl l) ∧ ∃ p ∈ l,
      unitaryOp H (1 / 2) * (p.2 * hc p.2) * hc (unitaryOp H (1 / 2)) ≠ p.2 * hc p.2 := by
  let H : Op 2 := diagonal ![0, ((2 * Real.pi : ℝ) : ℂ)]
  have hU : ∀ t : ℝ, unitaryOp H t = diagonal ![1, Complex.exp (-(2 * Real.pi * t * Complex.I))] := by
    intro t
    rw [unitaryOp, ← diagonal_smul, ← diagonal_smul, Matrix.exp_diagonal]
    congr 1
    funext i
    rw [Pi.coe_exp, ← Complex.exp_eq_exp_ℂ]
    fin_cases i
    · simp
    · simp
      congr 1
      ring
  have h1 : unitaryOp H 1 = 1 := by
    rw [hU, ← diagonal_one]
    congr 1
    funext i
    fin_cases i
    · simp
    · simp [Complex.exp_neg, Complex.exp_two_pi_mul_I]
  let v : Ket 2 := !![1; 1]
  have hv0 : v ≠ 0 := by
    intro h
    have := congrFun (congrFun h 0) 0
    simp [v] at this
  have hs : SortedByMagnitude (unitaryOp H 1) [(1, v), (1, v)] := by
    refine ⟨?_, ?_, by simp⟩
    · rw [h1, Matrix.charpoly_one]
      rw [← Polynomial.C_1, Polynomial.roots_pow, Polynomial.roots_X_sub_C]
      rfl
    · intro p hp
      simp only [List.mem_cons, List.not_mem_nil, or_false, or_self] at hp
      rw [hp, h1]
      exact ⟨by rw [Matrix.one_mul, one_smul], hv0⟩
  obtain ⟨e, he⟩ := exists_routine _ _ hs
  refine ⟨e, H, [(1, v), (1, v)], ?_, ?_, (1, v), List.mem_cons_self, ?_⟩
  · rw [Matrix.IsHermitian, diagonal_conjTranspose]
    congr 1
    funext i
    fin_cases i <;> simp
  · change some (Sum.inl (e.eig (unitaryOp H 1))) = _
    rw [he]
  · intro h
    have h2 := congrFun (congrFun h 0) 1
    rw [hU] at h2
    have h3 : Complex.exp (-(2 * Real.pi * ((1 / 2 : ℝ) : ℂ) * Complex.I)) = -1 := by
      rw [show (2 * Real.pi * ((1 / 2 : ℝ) : ℂ) * Complex.I : ℂ) = Real.pi * Complex.I by push_cast; ring, Complex.exp_neg,
        Complex.exp_pi_mul_I]
      norm_num
    rw [h3] at h2
    simp [hc_eq, Matrix.mul_apply, v, conjTranspose_apply] at h2
    simp [vecMul, dotProduct, conjTranspose_apply] at h2
    norm_num at h2

/-- **C69 (degenerate case).** When the magnitude one occurs twice, the last vector need not be a state at all: for a dephasing two level
system the routine may return a vector without trace. -/
theorem C69_degenerate : ∃ (e : EigenRoutine) (l : List (ℂ × Ket (2 * 2))),
    steadyState e (n := 2) none (some ([!![1, 0; 0, -1]].map .op)) none = some (.inr l) ∧
    (∃ p, l.getLast? = some p ∧ p.1 = 1 ∧ (vec2Mat p.2).trace = 0) ∧ (lastState l).trace ≠ 1 := by
  set L : Op (2 * 2) := hamPart none + collapsePart false (Collapse.op (!![1, 0; 0, -1] : Op 2)) with hL
  set W : Op (2 * 2) := exp (((1 : ℝ) : ℂ) • L) with hWd
  have hst : ∀ e : EigenRoutine, steadyState e (n := 2) none (some ([!![1, 0; 0, -1]].map .op)) none = some (.inr (e.eig W)) :=
    fun _ => rfl
  have hact : ∀ X : Op 2, act L X = !![1, 0; 0, -1] * X * !![1, 0; 0, -1] - (1 / 2 : ℂ) • (1 * X + X * 1) := by
    intro X
    have hh : (!![1, 0; 0, -1] : Op 2)ᴴ = !![1, 0; 0, -1] := by
      ext i j; fin_cases i <;> fin_cases j <;> simp [conjTranspose_apply]
    have hm : (!![1, 0; 0, -1] * !![1, 0; 0, -1] : Op 2) = 1 := by
      ext i j; fin_cases i <;> fin_cases j <;> simp [Matrix.mul_apply, Fin.sum_univ_two]
    rw [hL, hamPart, zero_add, collapsePart, act_dissipator, hh, hm]
    simp
  have hexp : ∀ (X : Op 2) (c : ℂ), act L X = c • X → act W X = Complex.exp c • X := by
    intro X c hX
    have h1 : (((1 : ℝ) : ℂ) • L) * mat2Vec X = c • mat2Vec X := by
      rw [Complex.ofReal_one, one_smul, ← mat2Vec_act, hX, mat2Vec_smul]
    rw [act, hWd, exp_mul_eigen _ _ _ h1, vec2Mat_smul, C39_vec2Mat_mat2Vec]
  have h0 : act W !![1, 0; 0, 0] = Complex.exp 0 • (!![1, 0; 0, 0] : Op 2) := by
    refine hexp _ _ ?_
    rw [hact]
    ext i j; fin_cases i <;> fin_cases j <;> simp [Matrix.mul_apply, Fin.sum_univ_two]
    norm_num
  have h1 : act W !![0, 1; 0, 0] = Complex.exp (-2) • (!![0, 1; 0, 0] : Op 2) := by
    refine hexp _ _ ?_
    rw [hact]
    ext i j; fin_cases i <;> fin_cases j <;> simp [Matrix.mul_apply, Fin.sum_univ_two]
    norm_num
  have h2 : act W !![0, 0; 1, 0] = Complex.exp (-2) • (!![0, 0; 1, 0] : Op 2) := by
    refine hexp _ _ ?_
    rw [hact]
    ext i j; fin_cases i <;> fin_cases j <;> simp [Matrix.mul_apply, Fin.sum_univ_two]
    norm_num
  have h3 : act W !![-1, 0; 0, 1] = Complex.exp 0 • (!![-1, 0; 0, 1] : Op 2) := by
    refine hexp _ _ ?_
    rw [hact]
    ext i j; fin_cases i <;> fin_cases j <;> simp [Matrix.mul_apply, Fin.sum_univ_two]
    all_goals norm_num
  have hvec : ∀ (X : Op 2) (c : ℂ), act W X = c • X → X ≠ 0 → W * mat2Vec X = c • mat2Vec X ∧ mat2Vec X ≠ 0 := by
    intro X c hX hX0
    refine ⟨by rw [← mat2Vec_act, hX, mat2Vec_smul], fun h => hX0 ?_⟩
    rw [← C39_vec2Mat_mat2Vec X, h]
    ext i j
    simp [vec2Mat]
  have hroots : W.charpoly.roots = Multiset.ofList [Complex.exp (-2), Complex.exp (-2), 1, 1] := by
    have := roots_of_eigen W (![Complex.exp (-2), Complex.exp (-2), Complex.exp 0, Complex.exp 0] : Fin 4 → ℂ)
      (![!![0, 1; 0, 0], !![0, 0; 1, 0], !![1, 0; 0, 0], !![-1, 0; 0, 1]] : Fin 4 → Op 2) (by
        intro j
        have hj : j = (0 : Fin 4) ∨ j = (1 : Fin 4) ∨ j = (2 : Fin 4) ∨ j = (3 : Fin 4) := by
          revert j; decide
        rcases hj with rfl | rfl | rfl | rfl
        · exact h1
        · exact h2
        · exact h0
        · exact h3) (by
        intro x hx
        change (∑ j : Fin 4, x j • (![!![0, 1; 0, 0], !![0, 0; 1, 0], !![1, 0; 0, 0], !![-1, 0; 0, 1]] : Fin 4 → Op 2) j) = 0 at hx
        rw [Fin.sum_univ_four] at hx
        have e00 := congrFun (congrFun hx 0) 0
        have e01 := congrFun (congrFun hx 0) 1
        have e10 := congrFun (congrFun hx 1) 0
        have e11 := congrFun (congrFun hx 1) 1
        simp at e00 e01 e10 e11
        rw [e11] at e00
        simp at e00
        funext j
        have hj : j = (0 : Fin 4) ∨ j = (1 : Fin 4) ∨ j = (2 : Fin 4) ∨ j = (3 : Fin 4) := by
          revert j; decide
        rcases hj with rfl | rfl | rfl | rfl
        · exact e01
        · exact e10
        · exact e00
        · exact e11)
    rw [this, ← Complex.exp_zero]
    rfl
  have hne : ∀ (X : Op 2) (i j : Fin 2), X i j ≠ 0 → X ≠ 0 := fun X i j h h0 => h (by rw [h0]; rfl)
  have hle : ‖Complex.exp (-2)‖ ≤ 1 := by
    rw [Complex.norm_exp]
    simp
  rw [Complex.exp_zero] at h0 h3
  have hs : SortedByMagnitude W [(Complex.exp (-2), mat2Vec !![0, 1; 0, 0]), (Complex.exp (-2), mat2Vec !![0, 0; 1, 0]),
      (1, mat2Vec !![1, 0; 0, 0]), (1, mat2Vec !![-1, 0; 0, 1])] := by
    refine ⟨by rw [hroots]; rfl, ?_, ?_⟩
    · intro p hp
      simp only [List.mem_cons, List.not_mem_nil, or_false] at hp
      rcases hp with rfl | rfl | rfl | rfl
      · exact hvec _ _ h1 (hne _ 0 1 (by simp))
      · exact hvec _ _ h2 (hne _ 1 0 (by simp))
      · exact hvec _ _ h0 (hne _ 0 0 (by simp))
      · exact hvec _ _ h3 (hne _ 1 1 (by simp))
    · simp [hle]
  obtain ⟨e, he⟩ := exists_routine _ _ hs
  have ht : (vec2Mat (mat2Vec (!![-1, 0; 0, 1] : Op 2))).trace = 0 := by
    rw [C39_vec2Mat_mat2Vec]
    simp [Matrix.trace, Fin.sum_univ_two]
  refine ⟨e, _, hst e, ?_, ?_⟩
  · rw [he]
    exact ⟨(1, mat2Vec !![-1, 0; 0, 1]), rfl, rfl, ht⟩
  · rw [he]
    change ((vec2Mat (mat2Vec (!![-1, 0; 0, 1] : Op 2))).trace⁻¹ • vec2Mat (mat2Vec (!![-1, 0; 0, 1] : Op 2))).trace ≠ 1
    rw [ht]
    simp

end Verif.Toolbox
