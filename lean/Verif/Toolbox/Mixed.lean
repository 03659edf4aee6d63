import Verif.Toolbox.StateProps

/-!
# C58: mixed states (`densityMatrix` of a list of kets), `normalise` of a matrix, `completeBasisMat`
-/
namespace Verif.Toolbox
open Matrix
open scoped ComplexOrder

variable {d : ℕ}

/-! ## Model -/

/-- `weightedSum(summands, weights)` (`states.py:236-256`) with `weights` possibly `None`: without weights the plain sum. The sum
of nothing is the integer `0`, which is not a matrix (`none`). -/
def weightedSumOpt {m : ℕ} (summands : List (Matrix (Fin d) (Fin m) ℂ)) (weights : Option (List ℂ)) :
    Option (Matrix (Fin d) (Fin m) ℂ) :=
  match weights with
  | some ws => weightedSum summands ws
  | none => match summands with
    | [] => none
    | l => some l.sum

/-- `densityMatrix(kets, probability)` (`states.py:331-378`) of a list of kets:
`normalise(weightedSum([outerProd(k) for k in ket], probability))`; `none`: an exception or division by zero. -/
noncomputable def densityMatrixList (kets : List (Ket d)) (probability : Option (List ℂ) := none) : Option (Op d) :=
  (weightedSumOpt (kets.map fun k => outerProd k) probability).bind normaliseMat

/-- `densityMatrix(x)` (`states.py:331-378`) of one matrix: `outerProd(x) = x @ hc(x)`, whatever the shape of `x` is. -/
def densityMatrixOne : QState d → Op d
  | .ket k => k * hc k
  | .mat A => A * hc A

/-- The loop of `completeBasisMat` (`states.py:424-425`): `for i, state in enumerate(compBase): compBase[i] = densityMatrix(state)`,
from position `i` on. -/
def overwrite : ℕ → List (QState d) → List (QState d)
  | i, l => if h : i < l.length then overwrite (i + 1) (l.set i (.mat (densityMatrixOne l[i]))) else l
termination_by i l => l.length - i
decreasing_by simp; omega

/-- `completeBasisMat(dimension, compKetBase)` (`states.py:380-426`): the returned list and the list object the caller passed
as `compKetBase`, afterwards (it is the same object). `none`: ValueError. -/
def completeBasisMat (dimension : Option Unit) (compKetBase : Option (List (QState d))) :
    Option (List (QState d) × Option (List (QState d))) :=
  match compKetBase with
  | none => match dimension with
    | none => none
    | some _ => some (overwrite 0 ((completeBasis d).map .ket), none)
  | some l => some (overwrite 0 l, some (overwrite 0 l))

/-! ## normalise -/

/-- **C58 (normalise).** A matrix is refused exactly when its trace is zero; otherwise the result has trace one, is the matrix
divided by its trace, and is not changed by normalising again. -/
theorem C58_normalise (A : Op d) :
    (normaliseMat A = none ↔ A.trace = 0) ∧
    ∀ B, normaliseMat A = some B → B.trace = 1 ∧ A.trace • B = A ∧ normaliseMat B = some B := by
  unfold normaliseMat
  by_cases h : A.trace = 0
  · simp [h]
  · rw [if_neg h]
    refine ⟨by simp [h], ?_⟩
    rintro B ⟨⟩
    have ht : ((1 / A.trace) • A).trace = 1 := by
      rw [trace_smul, smul_eq_mul, one_div, inv_mul_cancel₀ h]
    refine ⟨ht, ?_, ?_⟩
    · rw [smul_smul, one_div, mul_inv_cancel₀ h, one_smul]
    · rw [if_neg (by rw [ht]; exact one_ne_zero), ht, div_one, one_smul]

/-- **C58 (normalise).** The scale does not matter. -/
theorem C58_normalise_scale (A : Op d) (c : ℂ) (hc : c ≠ 0) : normaliseMat (c • A) = normaliseMat A := by
  unfold normaliseMat
  rw [trace_smul, smul_eq_mul]
  by_cases h : A.trace = 0
  · simp [h]
  · rw [if_neg (mul_ne_zero hc h), if_neg h, smul_smul]
    congr 2
    field_simp

example : normaliseMat (!![3, 1; 1, 1] : Op 2) = some !![3 / 4, 1 / 4; 1 / 4, 1 / 4] := by
  have h : (!![3, 1; 1, 1] : Op 2).trace = 4 := by rw [trace_fin_two]; norm_num
  rw [normaliseMat, h, if_neg (by norm_num)]
  congr 1
  ext i j
  fin_cases i <;> fin_cases j <;> norm_num

/-! ## Mixtures -/

/-- The pairs of weight and ket the code uses: as many as the shorter of the two lists has. -/
def used (kets : List (Ket d)) (ws : List ℝ) : List (ℝ × Ket d) := ws.zip kets

/-- The sum of weight times squared norm. -/
noncomputable def total (l : List (ℝ × Ket d)) : ℝ := (l.map fun p => p.1 * ∑ i, ‖p.2 i 0‖ ^ 2).sum

theorem outerProd_trace (k : Ket d) : (outerProd k).trace = ((∑ i, ‖k i 0‖ ^ 2 : ℝ) : ℂ) := by
  rw [← innerProd_self]
  simp only [outerProd, innerProd, Option.getD_none]
  exact trace_mul_comm _ _

theorem weightedSum_if {m : ℕ} (S : List (Matrix (Fin d) (Fin m) ℂ)) (W : List ℂ) :
    weightedSum S W = if W.zip S = [] then none else some ((W.zip S).map fun p => p.1 • p.2).sum := by
  unfold weightedSum
  split
  · rename_i h; simp [h]
  · rename_i l h; rw [if_neg h]

theorem weighted_eq (kets : List (Ket d)) (ws : List ℝ) :
    weightedSumOpt (kets.map fun k => outerProd k) (some (ws.map fun w : ℝ => (w : ℂ))) =
      if used kets ws = [] then none else some ((used kets ws).map fun p => (p.1 : ℂ) • outerProd p.2).sum := by
  have hz : (ws.map fun w : ℝ => (w : ℂ)).zip (kets.map fun k => outerProd k) =
      (used kets ws).map fun p => ((p.1 : ℂ), outerProd p.2) := by
    rw [List.zip_map]
    rfl
  simp only [weightedSumOpt]
  rw [weightedSum_if, hz, List.map_map]
  by_cases h : used kets ws = []
  · simp [h]
  · rw [if_neg (by simpa using h), if_neg h]
    rfl

theorem weighted_trace (l : List (ℝ × Ket d)) : ((l.map fun p => (p.1 : ℂ) • outerProd p.2).sum).trace = (total l : ℂ) := by
  induction l with
  | nil => simp [total]
  | cons a l ih =>
    rw [List.map_cons, List.sum_cons, trace_add, ih, trace_smul, outerProd_trace, smul_eq_mul]
    simp [total]

theorem mixture_eq (kets : List (Ket d)) (ws : List ℝ) :
    densityMatrixList kets (some (ws.map fun w : ℝ => (w : ℂ))) =
      if total (used kets ws) = 0 then none
      else some ((1 / (total (used kets ws) : ℂ)) • ((used kets ws).map fun p => (p.1 : ℂ) • outerProd p.2).sum) := by
  rw [densityMatrixList, weighted_eq]
  by_cases h : used kets ws = []
  · simp [h, total]
  · rw [if_neg h, Option.bind_some, normaliseMat, weighted_trace]
    by_cases h0 : total (used kets ws) = 0
    · simp [h0]
    · rw [if_neg (by exact_mod_cast h0), if_neg h0]

/-- **C58 (mixtures).** For real weights the entry `(i, j)` of the mixed state is `Σ w ψ_i conj(ψ_j) / Σ w ‖ψ‖²`, the sums
running over the pairs of weights and kets at the same positions. -/
theorem C58_mixture (kets : List (Ket d)) (ws : List ℝ) (rho : Op d)
    (h : densityMatrixList kets (some (ws.map fun w : ℝ => (w : ℂ))) = some rho) (i j : Fin d) :
    ((((ws.zip kets).map fun p => p.1 * ∑ a, ‖p.2 a 0‖ ^ 2).sum : ℝ) : ℂ) * rho i j =
      ((ws.zip kets).map fun p => (p.1 : ℂ) * (p.2 i 0 * (starRingEnd ℂ) (p.2 j 0))).sum := by
  rw [mixture_eq] at h
  by_cases h0 : total (used kets ws) = 0
  · simp [h0] at h
  · rw [if_neg h0, Option.some.injEq] at h
    subst h
    change (total (used kets ws) : ℂ) * _ = _
    rw [Matrix.smul_apply, smul_eq_mul, ← mul_assoc, mul_one_div_cancel (by exact_mod_cast h0), one_mul]
    change _ = ((used kets ws).map _).sum
    induction used kets ws with
    | nil => simp
    | cons a l ih =>
      simp only [List.map_cons, List.sum_cons, Matrix.add_apply, ih, Matrix.smul_apply, outerProd_self_apply, smul_eq_mul]

theorem total_nonneg (l : List (ℝ × Ket d)) (hw : ∀ p ∈ l, 0 ≤ p.1) : 0 ≤ total l := by
  refine List.sum_nonneg ?_
  intro x hx
  obtain ⟨p, hp, rfl⟩ := List.mem_map.mp hx
  exact mul_nonneg (hw p hp) (Finset.sum_nonneg fun i _ => by positivity)

theorem used_nonneg {kets : List (Ket d)} {ws : List ℝ} (hw : ∀ w ∈ ws, 0 ≤ w) : ∀ p ∈ used kets ws, 0 ≤ p.1 :=
  fun p hp => hw _ (List.of_mem_zip (show (p.1, p.2) ∈ ws.zip kets from hp)).1

theorem outerProd_pos (k : Ket d) : (outerProd k).PosSemidef := by
  have : outerProd k = k * kᴴ := by
    ext i j; simp [outerProd, hc, Matrix.mul_apply, conjTranspose_apply]
  rw [this]
  exact posSemidef_self_mul_conjTranspose k

/-- **C58 (mixtures).** With non-negative weights the result is a density matrix: positive semidefinite with trace one. -/
theorem C58_density (kets : List (Ket d)) (ws : List ℝ) (hw : ∀ w ∈ ws, 0 ≤ w) (rho : Op d)
    (h : densityMatrixList kets (some (ws.map fun w : ℝ => (w : ℂ))) = some rho) : IsDensity rho := by
  have hn := total_nonneg _ (used_nonneg (kets := kets) hw)
  rw [mixture_eq] at h
  by_cases h0 : total (used kets ws) = 0
  · simp [h0] at h
  · rw [if_neg h0, Option.some.injEq] at h
    subst h
    constructor
    · refine PosSemidef.smul ?_ ?_
      · have hu := used_nonneg (kets := kets) hw
        generalize used kets ws = L at hu
        induction L with
        | nil => exact PosSemidef.zero
        | cons a l ih =>
          rw [List.map_cons, List.sum_cons]
          refine PosSemidef.add ((outerProd_pos _).smul ?_) (ih fun p hp => hu p (List.mem_cons_of_mem _ hp))
          exact_mod_cast hu a List.mem_cons_self
      · rw [one_div, ← Complex.ofReal_inv]
        exact_mod_cast inv_nonneg.mpr hn
    · rw [trace_smul, weighted_trace, smul_eq_mul, one_div, inv_mul_cancel₀ (by exact_mod_cast h0)]

/-- **C58 (mixtures).** With non-negative weights a list is refused exactly if every ket that takes part has weight zero or is
the zero vector; in particular if one of the lists is empty. -/
theorem C58_refused_iff (kets : List (Ket d)) (ws : List ℝ) (hw : ∀ w ∈ ws, 0 ≤ w) :
    densityMatrixList kets (some (ws.map fun w : ℝ => (w : ℂ))) = none ↔ ∀ p ∈ ws.zip kets, p.1 = 0 ∨ p.2 = 0 := by
  have hu := used_nonneg (kets := kets) hw
  rw [mixture_eq]
  have key : total (used kets ws) = 0 ↔ ∀ p ∈ used kets ws, p.1 = 0 ∨ p.2 = 0 := by
    generalize used kets ws = L at hu
    induction L with
    | nil => simp [total]
    | cons a l ih =>
      have hl : ∀ p ∈ l, 0 ≤ p.1 := fun p hp => hu p (List.mem_cons_of_mem _ hp)
      have ha : 0 ≤ a.1 := hu a List.mem_cons_self
      have h1 : 0 ≤ a.1 * ∑ i, ‖a.2 i 0‖ ^ 2 := mul_nonneg ha (Finset.sum_nonneg fun i _ => by positivity)
      have ht : total (a :: l) = a.1 * (∑ i, ‖a.2 i 0‖ ^ 2) + total l := by simp [total]
      rw [ht, add_eq_zero_iff_of_nonneg h1 (total_nonneg l hl), ih hl, mul_eq_zero]
      have hk : ∑ i, ‖a.2 i 0‖ ^ 2 = 0 ↔ a.2 = 0 := by
        rw [Finset.sum_eq_zero_iff_of_nonneg (fun i _ => by positivity)]
        constructor
        · intro h; ext i j
          obtain rfl : j = 0 := Subsingleton.elim _ _
          simpa using h i (Finset.mem_univ i)
        · intro h i _; simp [h]
      rw [hk]
      simp
  split_ifs with h
  · exact iff_of_true rfl (key.mp h)
  · simp only [false_iff]
    exact fun hh => h (key.mpr hh)

/-- **C58 (mixtures).** For unit kets and as many probabilities with sum one nothing is rescaled: the state is `Σ w |ψ><ψ|`. -/
theorem C58_probabilities (kets : List (Ket d)) (ws : List ℝ) (hl : ws.length = kets.length)
    (hk : ∀ k ∈ kets, IsUnit k) (h1 : ws.sum = 1) :
    densityMatrixList kets (some (ws.map fun w : ℝ => (w : ℂ))) =
      some ((ws.zip kets).map fun p => (p.1 : ℂ) • outerProd p.2).sum := by
  have ht : total (used kets ws) = 1 := by
    rw [← h1]
    clear h1
    induction kets generalizing ws with
    | nil =>
      have : ws = [] := List.length_eq_zero_iff.mp hl
      subst this; simp [total, used]
    | cons k ks ih =>
      cases ws with
      | nil => simp at hl
      | cons w ws =>
        have := ih ws (by simpa using hl) fun k hk' => hk k (List.mem_cons_of_mem _ hk')
        have hk0 : ∑ i, ‖k i 0‖ ^ 2 = 1 := hk k List.mem_cons_self
        simp only [total, used, List.zip_cons_cons, List.map_cons, List.sum_cons, hk0, mul_one] at this ⊢
        rw [this]
  rw [mixture_eq, ht, if_neg one_ne_zero]
  simp [used]

/-- **C58 (mixtures).** No probabilities means equal weights. -/
theorem C58_no_weights (kets : List (Ket d)) :
    densityMatrixList kets none = densityMatrixList kets (some (List.replicate kets.length 1)) := by
  unfold densityMatrixList
  congr 1
  cases kets with
  | nil => rfl
  | cons k ks =>
    have : ∀ l : List (Op d), ((List.replicate l.length (1 : ℂ)).zip l).map (fun p => p.1 • p.2) = l := by
      intro l
      induction l with
      | nil => rfl
      | cons a l ih =>
        rw [List.length_cons, List.replicate_succ, List.zip_cons_cons, List.map_cons, ih, one_smul]
    have h2 := this ((k :: ks).map fun k => outerProd k)
    rw [List.length_map] at h2
    simp only [weightedSumOpt, weightedSum]
    conv_lhs => rw [← h2]
    simp [List.replicate_succ]

/-- **C58 (mixtures).** Only the ratios of the weights count. -/
theorem C58_weights_scale (kets : List (Ket d)) (ws : List ℂ) (c : ℂ) (hc : c ≠ 0) :
    densityMatrixList kets (some (ws.map (c * ·))) = densityMatrixList kets (some ws) := by
  have hz : ∀ l : List (Op d), (ws.map (c * ·)).zip l = (ws.zip l).map fun p => (c * p.1, p.2) := by
    intro l
    rw [List.zip_map_left]
    rfl
  simp only [densityMatrixList, weightedSumOpt]
  rw [weightedSum_if, weightedSum_if, hz]
  simp only [List.map_eq_nil_iff]
  generalize ws.zip (kets.map fun k => outerProd k) = L
  by_cases h : L = []
  · simp [h]
  · rw [if_neg h, if_neg h, Option.bind_some, Option.bind_some, ← C58_normalise_scale (L.map fun p => p.1 • p.2).sum c hc,
      List.smul_sum, List.map_map, List.map_map]
    simp only [Function.comp_def, mul_smul]

/-- **C58 (mixtures).** Kets without a probability and probabilities without a ket are ignored without an error. -/
theorem C58_truncated (kets more : List (Ket d)) (ws : List ℂ) (h : ws.length = kets.length) (ws' : List ℂ) :
    densityMatrixList (kets ++ more) (some ws) = densityMatrixList kets (some ws) ∧
    densityMatrixList kets (some (ws ++ ws')) = densityMatrixList kets (some ws) := by
  simp only [densityMatrixList, weightedSumOpt, weightedSum]
  have h1 : ws.zip ((kets ++ more).map fun k => outerProd k) = ws.zip (kets.map fun k => outerProd k) := by
    rw [List.map_append]
    have := List.zip_append (l₁ := ws) (r₁ := []) (l₂ := kets.map fun k => outerProd k) (r₂ := more.map fun k => outerProd k)
      (by simpa using h)
    simpa using this
  have h2 : (ws ++ ws').zip (kets.map fun k => outerProd k) = ws.zip (kets.map fun k => outerProd k) := by
    have := List.zip_append (l₁ := ws) (r₁ := ws') (l₂ := kets.map fun k => outerProd k) (r₂ := [])
      (by simpa using h)
    simpa using this
  rw [h1, h2]
  exact ⟨rfl, rfl⟩

/-- **C58 (mixtures).** The expectation value in a mixture is the weighted mean of the values in its parts. -/
theorem C58_expectation (kets : List (Ket d)) (ws : List ℝ) (rho : Op d)
    (h : densityMatrixList kets (some (ws.map fun w : ℝ => (w : ℂ))) = some rho) (A : Op d) :
    ((((ws.zip kets).map fun p => p.1 * ∑ a, ‖p.2 a 0‖ ^ 2).sum : ℝ) : ℂ) * (A * rho).trace =
      ((ws.zip kets).map fun p => (p.1 : ℂ) * innerProd (A * p.2) (some p.2)).sum := by
  rw [mixture_eq] at h
  by_cases h0 : total (used kets ws) = 0
  · simp [h0] at h
  · rw [if_neg h0, Option.some.injEq] at h
    subst h
    change (total (used kets ws) : ℂ) * _ = _
    rw [Matrix.mul_smul, trace_smul, smul_eq_mul, ← mul_assoc, mul_one_div_cancel (by exact_mod_cast h0), one_mul]
    change _ = ((used kets ws).map _).sum
    induction used kets ws with
    | nil => simp
    | cons a l ih =>
      simp only [List.map_cons, List.sum_cons, Matrix.mul_add, trace_add, ih, Matrix.mul_smul, trace_smul, smul_eq_mul]
      congr 2
      simp only [outerProd, innerProd, Option.getD_none, Option.getD_some]
      rw [← Matrix.mul_assoc]
      exact trace_mul_comm _ _

/-- **C58 (one ket).** The list form normalises, the form with one ket does not: they agree exactly for unit kets. -/
theorem C58_single (k : Ket d) : densityMatrixList [k] = some (outerProd k) ↔ IsUnit k := by
  have h1 : densityMatrixList [k] = normaliseMat (outerProd k) := by
    simp [densityMatrixList, weightedSumOpt]
  rw [h1, normaliseMat, outerProd_trace]
  constructor
  · intro h
    split_ifs at h with h0
    rw [Option.some.injEq] at h
    have := congrArg Matrix.trace h
    rw [trace_smul, outerProd_trace, smul_eq_mul, one_div, inv_mul_cancel₀ h0] at this
    exact_mod_cast this.symm
  · intro h
    unfold IsUnit at h
    rw [h]
    simp

/-- A mixture of two non-orthogonal kets with unequal weights. -/
theorem mixture_example : densityMatrixList [(!![1; 1] : Ket 2), !![2; 0]] (some [((1 / 4 : ℝ) : ℂ), ((1 / 8 : ℝ) : ℂ)]) =
    some !![3 / 4, 1 / 4; 1 / 4, 1 / 4] := by
  have := mixture_eq [(!![1; 1] : Ket 2), !![2; 0]] [1 / 4, 1 / 8]
  simp only [List.map_cons, List.map_nil] at this
  rw [this]
  have ht : total (used [(!![1; 1] : Ket 2), !![2; 0]] [1 / 4, 1 / 8]) = 1 := by
    simp [total, used]; norm_num
  rw [ht, if_neg one_ne_zero]
  congr 1
  ext i j
  fin_cases i <;> fin_cases j <;> simp [used, outerProd_self_apply, Complex.conj_ofNat] <;> norm_num

/-- The result printed in the docstring (`states.py:369-373`) for the equal mixture of `(|0> + |1>)/sqrt 2` and `|0>` is not what
the code returns; it is not even positive. -/
theorem C58_docstring :
    densityMatrixList [((1 / Real.sqrt 2 : ℝ) : ℂ) • (!![1; 1] : Ket 2), !![1; 0]] (some [((1 / 2 : ℝ) : ℂ), ((1 / 2 : ℝ) : ℂ)])
      = some !![3 / 4, 1 / 4; 1 / 4, 1 / 4] ∧
    ¬ (!![3 / 4, 1 / 2; 1 / 2, 1 / 4] : Op 2).PosSemidef := by
  constructor
  · have := mixture_eq [((1 / Real.sqrt 2 : ℝ) : ℂ) • (!![1; 1] : Ket 2), !![1; 0]] [1 / 2, 1 / 2]
    simp only [List.map_cons, List.map_nil] at this
    rw [this]
    have h2 : (1 / Real.sqrt 2) ^ 2 = 1 / 2 := by rw [div_pow, Real.sq_sqrt (by norm_num)]; norm_num
    have ht : total (used [((1 / Real.sqrt 2 : ℝ) : ℂ) • (!![1; 1] : Ket 2), !![1; 0]] [1 / 2, 1 / 2]) = 1 := by
      simp only [total, used, List.zip_cons_cons, List.zip_nil_right, List.map_cons, List.map_nil, List.sum_cons, List.sum_nil,
        Fin.sum_univ_two, Matrix.smul_apply, norm_smul, Complex.norm_real, Real.norm_eq_abs, mul_pow, sq_abs, h2]
      norm_num
    rw [ht, if_neg one_ne_zero]
    congr 1
    have h3 : ((1 / Real.sqrt 2 : ℝ) : ℂ) * ((1 / Real.sqrt 2 : ℝ) : ℂ) = 1 / 2 := by
      rw [← Complex.ofReal_mul, ← sq, h2]; norm_num
    ext i j
    simp only [used, List.zip_cons_cons, List.zip_nil_right, List.map_cons, List.map_nil, List.sum_cons, List.sum_nil, add_zero,
      Matrix.smul_apply, Matrix.add_apply, outerProd_self_apply, smul_eq_mul, map_mul, Complex.conj_ofReal]
    rw [show ∀ a b : ℂ, ((1 / Real.sqrt 2 : ℝ) : ℂ) * a * (((1 / Real.sqrt 2 : ℝ) : ℂ) * b) = (1 / 2) * (a * b) by
      intro a b; rw [← h3]; ring]
    fin_cases i <;> fin_cases j <;> simp <;> norm_num
  · intro h
    have := h.det_nonneg
    rw [det_fin_two_of] at this
    have h2 : (3 / 4 * (1 / 4) - 1 / 2 * (1 / 2) : ℂ) = ((-1 / 16 : ℝ) : ℂ) := by push_cast; norm_num
    rw [h2, Complex.zero_le_real] at this
    norm_num at this

/-! ## completeBasisMat -/

theorem overwrite_eq (pre l : List (QState d)) :
    overwrite pre.length (pre ++ l) = pre ++ l.map fun s => .mat (densityMatrixOne s) := by
  induction l generalizing pre with
  | nil =>
    rw [overwrite]
    simp
  | cons a l ih =>
    rw [overwrite]
    have hlt : pre.length < (pre ++ a :: l).length := by simp
    rw [dif_pos hlt]
    have hs : (pre ++ a :: l).set pre.length (.mat (densityMatrixOne (pre ++ a :: l)[pre.length])) =
        (pre ++ [.mat (densityMatrixOne a)]) ++ l := by
      simp
    rw [hs]
    have := ih (pre ++ [.mat (densityMatrixOne a)])
    rw [List.length_append, List.length_singleton] at this
    rw [this]
    simp

theorem overwrite_zero (l : List (QState d)) : overwrite 0 l = l.map fun s => .mat (densityMatrixOne s) :=
  overwrite_eq [] l

/-- **C58 (projectors).** For a dimension, entry `n` of `completeBasisMat(dimension)` is the projector on level `n`: the matrix
with a one at `(n, n)` and zeros elsewhere. -/
theorem C58_basis : ∃ l, completeBasisMat (d := d) (some ()) none = some (l, none) ∧ l.length = d ∧
    ∀ n (hn : n < d), l[n]? = some (.mat (Matrix.single ⟨n, hn⟩ ⟨n, hn⟩ 1)) := by
  refine ⟨_, rfl, ?_, ?_⟩
  · simp [overwrite_zero, completeBasis]
  · intro n hn
    rw [overwrite_zero]
    simp only [completeBasis, List.map_map, List.getElem?_map, List.getElem?_range hn, Option.map_some, Function.comp_def,
      densityMatrixOne]
    congr 2
    ext i j
    simp only [hc, Matrix.mul_apply, Finset.univ_unique, Finset.sum_singleton, Matrix.map_apply, transpose_apply, basis, of_apply,
      Matrix.single_apply, Fin.ext_iff]
    have e1 : (n = (i : ℕ)) ↔ (i : ℕ) = n := eq_comm
    have e2 : (n = (j : ℕ)) ↔ (j : ℕ) = n := eq_comm
    simp only [e1, e2]
    by_cases h1 : (i : ℕ) = n <;> by_cases h2 : (j : ℕ) = n <;> simp [h1, h2]

/-- As many kets as the dimension, of norm one and orthogonal to each other. -/
def Orthonormal (bas : List (Ket d)) : Prop :=
  bas.length = d ∧ ∀ i j (hi : i < bas.length) (hj : j < bas.length), innerProd bas[i] (some bas[j]) = if i = j then 1 else 0

theorem outerProd_mul_outerProd (a b : Ket d) : outerProd a * outerProd b = innerProd b (some a) • (a * hc b) := by
  ext i j
  have h : outerProd a * outerProd b = a * (hc a * b) * hc b := by
    simp only [outerProd, Option.getD_none, Matrix.mul_assoc]
  rw [h]
  simp only [Matrix.mul_apply, Finset.univ_unique, Fin.default_eq_zero, Finset.sum_singleton, Matrix.smul_apply, smul_eq_mul,
    innerProd_eq, hc, Matrix.map_apply, transpose_apply]
  ring

theorem outerProd_herm (k : Ket d) : (outerProd k)ᴴ = outerProd k := (outerProd_pos k).isHermitian.eq

theorem sum_outerProd (bas : List (Ket d)) (hb : Orthonormal bas) : (bas.map fun k => outerProd k).sum = 1 := by
  obtain ⟨hl, ho⟩ := hb
  let U : Op d := Matrix.of fun (i j : Fin d) => (bas[j.1]'(by rw [hl]; exact j.2)) i 0
  have h1 : Uᴴ * U = 1 := by
    ext i j
    have := ho j.1 i.1 (by rw [hl]; exact j.2) (by rw [hl]; exact i.2)
    rw [innerProd_eq] at this
    simp only [U, Matrix.mul_apply, conjTranspose_apply, of_apply, RCLike.star_def, Matrix.one_apply, this, Fin.ext_iff]
    by_cases h : i.1 = j.1 <;> simp [h, eq_comm]
  have h2 : U * Uᴴ = 1 := mul_eq_one_comm.mp h1
  rw [← h2]
  ext a b
  have h3 : ∀ l : List (Ket d), (l.map fun k => outerProd k).sum a b = (l.map fun k => k a 0 * (starRingEnd ℂ) (k b 0)).sum := by
    intro l
    induction l with
    | nil => simp
    | cons k l ih => simp [ih, outerProd_self_apply]
  rw [h3, Matrix.mul_apply]
  simp only [U, conjTranspose_apply, of_apply, RCLike.star_def]
  rw [← List.sum_ofFn]
  congr 1
  refine List.ext_getElem (by simp [hl]) ?_
  intro n h4 h5
  simp

/-- **C49 (IPR, any basis).** An orthonormal basis satisfies Parseval's identity, so the bounds of `C49_ipr_any_basis` hold. -/
theorem C49_ipr_orthonormal (hd : d ≠ 1) (bas : List (Ket d)) (hb : Orthonormal bas) (k : Ket d) (hk : IsUnit k) :
    1 ≤ iprKet bas k ∧ iprKet bas k ≤ d := by
  have hp : Parseval bas := by
    intro k
    have h1 : (hc k * (bas.map fun b => outerProd b).sum * k).trace = ((∑ i, ‖k i 0‖ ^ 2 : ℝ) : ℂ) := by
      rw [sum_outerProd bas hb, Matrix.mul_one, ← innerProd_self]
      rfl
    have h2 : ∀ l : List (Ket d), (hc k * (l.map fun b => outerProd b).sum * k).trace =
        (((l.map fun b => ‖innerProd b (some k)‖ ^ 2).sum : ℝ) : ℂ) := by
      intro l
      induction l with
      | nil => simp
      | cons b l ih =>
        rw [List.map_cons, List.sum_cons, Matrix.mul_add, Matrix.add_mul, trace_add, ih]
        simp only [List.map_cons, List.sum_cons, Complex.ofReal_add]
        congr 1
        have h3 : hc k * outerProd b * k = (hc k * b) * (hc b * k) := by
          simp only [outerProd, Option.getD_none, Matrix.mul_assoc]
        rw [h3]
        simp only [trace, diag_apply, Matrix.mul_apply, Finset.univ_unique, Fin.default_eq_zero, Finset.sum_singleton, innerProd_eq, hc,
          Matrix.map_apply, transpose_apply]
        rw [Complex.ofReal_pow, ← Complex.mul_conj', map_sum]
        simp [mul_comm]
    exact_mod_cast (h2 bas).symm.trans h1
  have := C49_ipr_any_basis hd bas hp k hk
  rw [hb.1] at this
  exact this

/-- **C58 (completeness).** For every orthonormal basis of kets the returned matrices are the projectors on them, orthogonal to
each other, and sum to the identity. -/
theorem C58_complete (bas : List (Ket d)) (hb : Orthonormal bas) :
    ∃ Ps : List (Op d), completeBasisMat none (some (bas.map .ket)) = some (Ps.map .mat, some (Ps.map .mat)) ∧
      Ps.length = d ∧ Ps.sum = 1 ∧ (∀ P ∈ Ps, Pᴴ = P ∧ P.trace = 1) ∧
      ∀ i j (hi : i < Ps.length) (hj : j < Ps.length), Ps[i] * Ps[j] = if i = j then Ps[i] else 0 := by
  refine ⟨bas.map fun k => outerProd k, ?_, by simpa using hb.1, sum_outerProd bas hb, ?_, ?_⟩
  · simp [completeBasisMat, overwrite_zero, densityMatrixOne, outerProd, Function.comp_def]
  · intro P hP
    obtain ⟨k, hk, rfl⟩ := List.mem_map.mp hP
    obtain ⟨n, hn, rfl⟩ := List.mem_iff_getElem.mp hk
    refine ⟨outerProd_herm _, ?_⟩
    have := hb.2 n n hn hn
    rw [if_pos rfl] at this
    rw [outerProd_trace, ← innerProd_self]
    exact this
  · intro i j hi hj
    rw [List.length_map] at hi hj
    simp only [List.getElem_map]
    rw [outerProd_mul_outerProd, hb.2 j i hj hi]
    by_cases h : i = j
    · subst h; simp [outerProd]
    · rw [if_neg (Ne.symm h), if_neg h, zero_smul]

/-- **C58 (argument overwritten).** The list of kets passed as `compKetBase` is itself overwritten with the matrices: afterwards
the caller holds the returned list. -/
theorem C58_overwritten (l : List (QState d)) : ∃ r, completeBasisMat none (some l) = some (r, some r) ∧
    r = l.map fun s => .mat (densityMatrixOne s) :=
  ⟨_, rfl, overwrite_zero l⟩

/-- **C58 (second call).** Calling it again on the overwritten list changes nothing exactly if every ket had norm one (or was
zero). -/
theorem C58_second_call (bas : List (Ket d)) (r : List (QState d))
    (h : completeBasisMat none (some (bas.map .ket)) = some (r, some r)) :
    completeBasisMat none (some r) = some (r, some r) ↔ ∀ k ∈ bas, IsUnit k ∨ k = 0 := by
  simp only [completeBasisMat, overwrite_zero, Option.some.injEq, Prod.mk.injEq] at h
  obtain ⟨rfl, -⟩ := h
  simp only [completeBasisMat, overwrite_zero, List.map_map, Option.some.injEq, Prod.mk.injEq, and_self, List.map_inj_left,
    Function.comp_apply, densityMatrixOne, QState.mat.injEq]
  refine forall₂_congr fun k _ => ?_
  have h0 : k * hc k = outerProd k := rfl
  have h1 : hc (outerProd k) = outerProd k := outerProd_herm k
  rw [h0, h1, outerProd_mul_outerProd, h0]
  have h2 : innerProd k (some k) = ((∑ i, ‖k i 0‖ ^ 2 : ℝ) : ℂ) := innerProd_self k
  rw [h2]
  constructor
  · intro h3
    have h4 := congrArg Matrix.trace h3
    rw [trace_smul, outerProd_trace, smul_eq_mul] at h4
    have h5 : (∑ i, ‖k i 0‖ ^ 2) * (∑ i, ‖k i 0‖ ^ 2) = ∑ i, ‖k i 0‖ ^ 2 := by exact_mod_cast h4
    by_cases h6 : ∑ i, ‖k i 0‖ ^ 2 = 0
    · right
      ext i j
      obtain rfl : j = 0 := Subsingleton.elim _ _
      have := (Finset.sum_eq_zero_iff_of_nonneg (fun i _ => by positivity)).mp h6 i (Finset.mem_univ i)
      simpa using this
    · left
      exact mul_left_cancel₀ h6 (by rw [h5, mul_one])
  · rintro (h3 | rfl)
    · unfold IsUnit at h3
      rw [h3]; simp
    · simp [outerProd]

/-- An orthonormal basis with a phase; a ket of norm two is not left alone by a second call. -/
example : Orthonormal [(!![1; 0] : Ket 2), !![0; Complex.I]] ∧ ¬ (IsUnit (!![2; 0] : Ket 2) ∨ (!![2; 0] : Ket 2) = 0) := by
  refine ⟨⟨rfl, ?_⟩, ?_⟩
  · intro i j hi hj
    simp only [List.length_cons, List.length_nil] at hi hj
    interval_cases i <;> interval_cases j <;> simp [innerProd_eq]
  · rintro (h | h)
    · simp [IsUnit] at h
      norm_num at h
    · have := congrFun (congrFun h 0) 0
      simp at this

end Verif.Toolbox
