import Verif.Toolbox.Hamiltonians
import Verif.Toolbox.ExpLemmas
import Verif.Toolbox.EvolutionProps
import Verif.Toolbox.OperatorLemmas
import Mathlib.Tactic.FinCases
import Mathlib.Analysis.SpecialFunctions.Exponential

/-!
# C48: the analytic Jaynes-Cummings propagator
-/
namespace Verif.Toolbox
open Matrix NormedSpace

/-! ## Exponential of a matrix made of two-by-two blocks -/

section blocks
variable {n : ℕ} (p : Fin n → Fin n)

/-- The matrix swapping `i` and `p i`. -/
def pairM : Op n := Matrix.of fun i j => if j = p i then 1 else 0

theorem pairM_mul_diagonal (hp : ∀ i, p (p i) = i) (a : Fin n → ℂ) :
    pairM p * diagonal a = diagonal (fun i => a (p i)) * pairM p := by
  ext i j
  rw [Matrix.mul_diagonal, Matrix.diagonal_mul]
  simp only [pairM, Matrix.of_apply]
  split_ifs with h
  · subst h; ring
  · ring

theorem pairM_sq (hp : ∀ i, p (p i) = i) : pairM p * pairM p = 1 := by
  ext i j
  rw [Matrix.mul_apply, Finset.sum_eq_single (p i)]
  · simp only [pairM, Matrix.of_apply, if_true, one_mul, hp, Matrix.one_apply]
    by_cases h : i = j
    · simp [h]
    · simp [h, Ne.symm h]
  · intro k _ hk; simp [pairM, hk]
  · simp

theorem diag_add (a b : Fin n → ℂ) : (diagonal a : Op n) + diagonal b = diagonal fun i => a i + b i := by
  rw [Matrix.diagonal_add]
theorem diag_mul (a b : Fin n → ℂ) : (diagonal a : Op n) * diagonal b = diagonal fun i => a i * b i :=
  Matrix.diagonal_mul_diagonal _ _

/-- Product of two block matrices. -/
theorem block_mul (hp : ∀ i, p (p i) = i) (a b a' b' : Fin n → ℂ) :
    (diagonal a + diagonal b * pairM p) * (diagonal a' + diagonal b' * pairM p) =
    diagonal (fun i => a i * a' i + b i * b' (p i)) + diagonal (fun i => a i * b' i + b i * a' (p i)) * pairM p := by
  rw [Matrix.add_mul, Matrix.mul_add, Matrix.mul_add]
  have h1 : diagonal b * pairM p * diagonal a' = diagonal (fun i => b i * a' (p i)) * pairM p := by
    rw [Matrix.mul_assoc, pairM_mul_diagonal p hp, ← Matrix.mul_assoc, diag_mul]
  have h2 : diagonal b * pairM p * (diagonal b' * pairM p) = diagonal (fun i => b i * b' (p i)) := by
    rw [← Matrix.mul_assoc, Matrix.mul_assoc (diagonal b), pairM_mul_diagonal p hp, ← Matrix.mul_assoc, Matrix.mul_assoc,
      pairM_sq p hp, Matrix.mul_one, diag_mul]
  rw [h1, h2, diag_mul, ← Matrix.mul_assoc, diag_mul, ← diag_add, ← diag_add, Matrix.add_mul]
  abel

theorem exp_blocks (hp : ∀ i, p (p i) = i) (c W δ κ : Fin n → ℝ) (hc : ∀ i, c (p i) = c i) (hW : ∀ i, W (p i) = W i)
    (hδ : ∀ i, δ (p i) = -δ i) (hκ : ∀ i, κ (p i) = κ i) (hsq : ∀ i, W i ^ 2 = δ i ^ 2 + κ i ^ 2) (t : ℝ) :
    unitaryOp (diagonal (fun i => ((c i + δ i : ℝ) : ℂ)) + diagonal (fun i => ((κ i : ℝ) : ℂ)) * pairM p) t =
    diagonal (fun i => Complex.exp (-Complex.I * t * c i) *
      (Complex.cos (W i * t) - Complex.I * δ i * Complex.sin (W i * t) / W i)) +
    diagonal (fun i => Complex.exp (-Complex.I * t * c i) *
      (-Complex.I * κ i * Complex.sin (W i * t) / W i)) * pairM p := by
  set ν : Fin n → ℂ := fun i => if W i = 0 then 1 else ((δ i / W i : ℝ) : ℂ) with hν
  set μ : Fin n → ℂ := fun i => ((κ i / W i : ℝ) : ℂ) with hμ
  have h0 : ∀ i, W i = 0 → δ i = 0 ∧ κ i = 0 := by
    intro i h
    have := hsq i
    rw [h] at this
    constructor <;> nlinarith [sq_nonneg (δ i), sq_nonneg (κ i)]
  set V : Op n := diagonal ν + diagonal μ * pairM p with hV
  have hVV : V * V = 1 := by
    rw [hV, block_mul p hp]
    have e1 : (fun i => ν i * ν i + μ i * μ (p i)) = fun _ => (1 : ℂ) := by
      funext i
      simp only [hν, hμ, hκ, hW]
      by_cases h : W i = 0
      · simp [h]
      · rw [if_neg h]
        rw [← Complex.ofReal_mul, ← Complex.ofReal_mul, ← Complex.ofReal_add]
        have : δ i / W i * (δ i / W i) + κ i / W i * (κ i / W i) = 1 := by
          field_simp; rw [hsq i]
        rw [this]; simp
    have e2 : (fun i => ν i * μ i + μ i * ν (p i)) = fun _ => (0 : ℂ) := by
      funext i
      simp only [hν, hμ, hW, hδ]
      by_cases h : W i = 0
      · simp [h]
      · rw [if_neg h, if_neg h]
        push_cast; ring
    rw [e1, e2]
    simp
  have hcV : ∀ a : Fin n → ℂ, (∀ i, a (p i) = a i) → V * diagonal a = diagonal a * V := by
    intro a ha
    rw [hV, Matrix.add_mul, Matrix.mul_add, Matrix.mul_assoc, pairM_mul_diagonal p hp, ← Matrix.mul_assoc, ← Matrix.mul_assoc,
      diag_mul, diag_mul, diag_mul, diag_mul]
    congr 1
    · congr 1; funext i; ring
    · congr 2; funext i; rw [ha]; ring
  set H : Op n := diagonal (fun i => ((c i + δ i : ℝ) : ℂ)) + diagonal (fun i => ((κ i : ℝ) : ℂ)) * pairM p with hH
  have hHV : H = diagonal (fun i => ((c i : ℝ) : ℂ)) + diagonal (fun i => ((W i : ℝ) : ℂ)) * V := by
    rw [hH, hV, Matrix.mul_add, ← Matrix.mul_assoc, diag_mul, diag_mul, ← add_assoc, diag_add]
    congr 1
    · congr 1; funext i
      simp only [hν]
      by_cases h : W i = 0
      · simp [h, (h0 i h).1]
      · rw [if_neg h]; rw [← Complex.ofReal_mul, mul_div_cancel₀ _ h]; push_cast; ring
    · congr 2; funext i
      simp only [hμ]
      by_cases h : W i = 0
      · simp [h, (h0 i h).2]
      · rw [← Complex.ofReal_mul, mul_div_cancel₀ _ h]
  have hsgn : ∀ s : ℂ, s * s = 1 → (1 + s • V) * H = diagonal (fun i => ((c i : ℝ) : ℂ) + s * ((W i : ℝ) : ℂ)) * (1 + s • V) := by
    intro s hs
    have e : diagonal (fun i => ((c i : ℝ) : ℂ) + s * ((W i : ℝ) : ℂ)) =
        (diagonal (fun i => ((c i : ℝ) : ℂ)) : Op n) + s • diagonal (fun i => ((W i : ℝ) : ℂ)) := by
      rw [← Matrix.diagonal_smul, diag_add]; rfl
    have h1 : V * diagonal (fun i => ((c i : ℝ) : ℂ)) = diagonal (fun i => ((c i : ℝ) : ℂ)) * V := hcV _ fun i => by rw [hc]
    have h2 : V * diagonal (fun i => ((W i : ℝ) : ℂ)) = diagonal (fun i => ((W i : ℝ) : ℂ)) * V := hcV _ fun i => by rw [hW]
    have h3 : V * (diagonal (fun i => ((W i : ℝ) : ℂ)) * V) = diagonal (fun i => ((W i : ℝ) : ℂ)) := by
      rw [← Matrix.mul_assoc, h2, Matrix.mul_assoc, hVV, Matrix.mul_one]
    rw [e, hHV]
    simp only [Matrix.add_mul, Matrix.mul_add, Matrix.one_mul, Matrix.mul_one, Matrix.smul_mul, Matrix.mul_smul, h1, h3,
      smul_add, smul_smul, hs, one_smul]
    abel
  have hexp : ∀ s : ℂ, s * s = 1 → (1 + s • V) * unitaryOp H t =
      diagonal (fun i => Complex.exp (-Complex.I * t * ((c i : ℝ) + s * (W i : ℝ)))) * (1 + s • V) := by
    intro s hs
    rw [unitaryOp, mul_exp_of_intertwine (1 + s • V) _ (diagonal (fun i => -Complex.I * t * ((c i : ℝ) + s * (W i : ℝ))))]
    · rw [Matrix.exp_diagonal]
      congr 2
      funext i
      rw [Pi.coe_exp, Complex.exp_eq_exp_ℂ]
    · rw [Matrix.mul_smul, Matrix.mul_smul, hsgn s hs, ← Matrix.smul_mul, ← Matrix.smul_mul, ← Matrix.diagonal_smul,
        ← Matrix.diagonal_smul]
      congr 2
      funext i
      simp only [Pi.smul_apply, smul_eq_mul]; ring
  have h1 := hexp 1 (by ring)
  have h2 := hexp (-1) (by ring)
  have hsum : (2 : ℂ) • unitaryOp H t = (1 + (1 : ℂ) • V) * unitaryOp H t + (1 + (-1 : ℂ) • V) * unitaryOp H t := by
    rw [← Matrix.add_mul]
    have : (1 + (1 : ℂ) • V) + (1 + (-1 : ℂ) • V) = (2 : ℂ) • (1 : Op n) := by module
    rw [this, Matrix.smul_mul, Matrix.one_mul]
  rw [h1, h2] at hsum
  have hfin : unitaryOp H t = diagonal (fun i => Complex.exp (-Complex.I * t * c i) * Complex.cos (W i * t)) +
      diagonal (fun i => Complex.exp (-Complex.I * t * c i) * (-Complex.I * Complex.sin (W i * t))) * V := by
    have hh : unitaryOp H t = (1 / 2 : ℂ) • ((2 : ℂ) • unitaryOp H t) := by rw [smul_smul]; norm_num
    rw [hh, hsum]
    have ep : ∀ i, Complex.exp (-Complex.I * t * ((c i : ℝ) + 1 * (W i : ℝ))) =
        Complex.exp (-Complex.I * t * c i) * (Complex.cos (W i * t) - Complex.sin (W i * t) * Complex.I) := by
      intro i
      have : Complex.cos (W i * t) - Complex.sin (W i * t) * Complex.I = Complex.exp (-(W i * t) * Complex.I) := by
        rw [Complex.exp_mul_I, Complex.cos_neg, Complex.sin_neg]; ring
      rw [this, ← Complex.exp_add]
      congr 1; ring
    have em : ∀ i, Complex.exp (-Complex.I * t * ((c i : ℝ) + -1 * (W i : ℝ))) =
        Complex.exp (-Complex.I * t * c i) * (Complex.cos (W i * t) + Complex.sin (W i * t) * Complex.I) := by
      intro i
      rw [← Complex.exp_mul_I, ← Complex.exp_add]
      congr 1; ring
    simp only [ep, em, Matrix.mul_add, Matrix.mul_one, Matrix.mul_smul, one_smul, neg_smul]
    ext i j
    simp only [Matrix.add_apply, Matrix.smul_apply, Matrix.neg_apply, Matrix.diagonal_mul, smul_eq_mul]
    by_cases hij : i = j
    · subst hij; simp only [Matrix.diagonal_apply_eq]; ring
    · simp only [Matrix.diagonal_apply_ne _ hij]; ring
  rw [hfin, hV, Matrix.mul_add, ← Matrix.mul_assoc, diag_mul, diag_mul, ← add_assoc, diag_add]
  congr 1
  · congr 1; funext i
    simp only [hν]
    by_cases h : W i = 0
    · simp [h]
    · rw [if_neg h]; push_cast; ring
  · congr 2; funext i
    simp only [hμ]
    push_cast; ring

end blocks

/-! ## The ordering of the basis -/

section order
variable {d : ℕ}

/-- The basis order of `UJC`: position `2n` is `|g, n>`, position `2n+1` is `|e, n>`; `qubit x cavity` has `|e>` first. -/
def ujcOrder (a : Fin (2 * d)) : Fin (2 * d) :=
  finProdFinEquiv ((if (a : ℕ) % 2 = 0 then (1 : Fin 2) else 0), (⟨(a : ℕ) / 2, by have := a.2; omega⟩ : Fin d))

theorem ujcOrder_injective : Function.Injective (ujcOrder (d := d)) := by
  intro a b h
  have h' := finProdFinEquiv.injective h
  have h2 := congrArg Prod.snd h'
  have h1 := congrArg Prod.fst h'
  simp only [Fin.mk.injEq] at h2
  have h3 : (a : ℕ) % 2 = (b : ℕ) % 2 := by
    by_cases ha : (a : ℕ) % 2 = 0 <;> by_cases hb : (b : ℕ) % 2 = 0 <;> simp [ha, hb] at h1 <;> omega
  exact Fin.ext (by omega)

/-- Reordering the basis commutes with the exponential. -/
theorem unitaryOp_submatrix {n : ℕ} (H : Op n) (f : Fin n → Fin n) (hf : Function.Injective f) (t : ℝ) :
    unitaryOp (H.submatrix f f) t = (unitaryOp H t).submatrix f f := by
  have hb : Function.Bijective f := Finite.injective_iff_bijective.mp hf
  set e := Equiv.ofBijective f hb
  set X : Op n := Matrix.of fun i j => if j = f i then 1 else 0 with hX
  have hXm : ∀ A : Op n, X * A = Matrix.of fun i j => A (f i) j := by
    intro A; ext i j
    rw [Matrix.mul_apply, Finset.sum_eq_single (f i)]
    · simp [hX]
    · intro k _ hk; simp [hX, hk]
    · simp
  have hmX : ∀ A : Op n, ∀ i j, (A * X) i (f j) = A i j := by
    intro A i j
    rw [Matrix.mul_apply, Finset.sum_eq_single j]
    · simp [hX]
    · intro k _ hk
      simp only [hX, Matrix.of_apply]
      rw [if_neg, mul_zero]
      intro h; exact hk (hf h).symm
    · simp
  have hint : X * ((t : ℂ) • ((-Complex.I) • H)) = ((t : ℂ) • ((-Complex.I) • H.submatrix f f)) * X := by
    ext i j
    obtain ⟨j, rfl⟩ := hb.2 j
    rw [hmX, hXm]; rfl
  have := mul_exp_of_intertwine X _ _ hint
  ext i j
  have e1 := congrFun (congrFun this i) (f j)
  rw [hmX, hXm] at e1
  exact e1.symm

/-- Partner of a level: `|g,n>` and `|e,n-1>`; the lowest and the highest level are alone. -/
def jcPair (a : Fin (2 * d)) : Fin (2 * d) :=
  if h0 : (a : ℕ) = 0 then a
  else if h1 : (a : ℕ) = 2 * d - 1 then a
  else if h2 : (a : ℕ) % 2 = 0 then ⟨a - 1, by omega⟩ else ⟨a + 1, by have := a.2; omega⟩

theorem jcPair_val (a : Fin (2 * d)) : (jcPair a : ℕ) =
    if (a : ℕ) = 0 then (a : ℕ) else if (a : ℕ) = 2 * d - 1 then (a : ℕ) else if (a : ℕ) % 2 = 0 then a - 1 else a + 1 := by
  simp only [jcPair]
  split_ifs <;> rfl

theorem jcPair_cases (a : Fin (2 * d)) :
    ((a : ℕ) = 0 ∧ (jcPair a : ℕ) = a) ∨ ((a : ℕ) = 2 * d - 1 ∧ (jcPair a : ℕ) = a) ∨
    ((a : ℕ) ≠ 0 ∧ (a : ℕ) ≠ 2 * d - 1 ∧ (a : ℕ) % 2 = 0 ∧ (jcPair a : ℕ) + 1 = a) ∨
    ((a : ℕ) ≠ 0 ∧ (a : ℕ) ≠ 2 * d - 1 ∧ (a : ℕ) % 2 = 1 ∧ (jcPair a : ℕ) = a + 1) := by
  have := a.2
  rw [jcPair_val]
  split_ifs <;> omega

theorem jcPair_invol (a : Fin (2 * d)) : jcPair (jcPair a) = a := by
  apply Fin.ext
  have := a.2
  rcases jcPair_cases a with h | h | h | h <;> rcases jcPair_cases (jcPair a) with k | k | k | k <;> omega

/-- Is the level alone? -/
def alone (d : ℕ) (a : ℕ) : Prop := a = 0 ∨ a = 2 * d - 1
instance (d a : ℕ) : Decidable (alone d a) := by unfold alone; infer_instance

theorem jcPair_alone (a : Fin (2 * d)) : alone d (jcPair a : ℕ) ↔ alone d (a : ℕ) := by
  have := a.2
  have := (jcPair a).2
  unfold alone
  rcases jcPair_cases a with h | h | h | h <;> omega

theorem jcPair_of_alone (a : Fin (2 * d)) (h : alone d (a : ℕ)) : jcPair a = a := by
  apply Fin.ext
  unfold alone at h
  rcases jcPair_cases a with k | k | k | k <;> omega

theorem jcPair_block (a : Fin (2 * d)) (h : ¬ alone d (a : ℕ)) : ((jcPair a : ℕ) + 1) / 2 = ((a : ℕ) + 1) / 2 ∧
    ((jcPair a : ℕ) % 2 = 0 ↔ ¬ (a : ℕ) % 2 = 0) := by
  unfold alone at h
  rcases jcPair_cases a with k | k | k | k <;> omega

variable (wq wc g : ℝ)

/-- Mean energy, half difference and coupling of the block of a level. -/
noncomputable def jcC (a : Fin (2 * d)) : ℝ :=
  if alone d a then (if (a : ℕ) % 2 = 0 then -(wq / 2) else wc * ((a : ℕ) / 2 : ℕ) + wq / 2)
  else wc * (((((a : ℕ) + 1) / 2 : ℕ) : ℝ) - 1 / 2)
noncomputable def jcDelta (a : Fin (2 * d)) : ℝ :=
  if alone d a then 0 else if (a : ℕ) % 2 = 0 then -((wq - wc) / 2) else (wq - wc) / 2
noncomputable def jcKappa (a : Fin (2 * d)) : ℝ :=
  if alone d a then 0 else Real.sqrt ((((a : ℕ) + 1) / 2 : ℕ) : ℝ) * g
noncomputable def jcW (a : Fin (2 * d)) : ℝ :=
  if alone d a then 0 else ujcOmega (wq - wc) g (((a : ℕ) + 1) / 2)

theorem finProd_symm_order (a : Fin (2 * d)) : finProdFinEquiv.symm (ujcOrder a) =
    ((if (a : ℕ) % 2 = 0 then (1 : Fin 2) else 0), (⟨(a : ℕ) / 2, by have := a.2; omega⟩ : Fin d)) :=
  Equiv.symm_apply_apply _ _

theorem JC_submatrix : (JCHam (wq / 2) wc g d).submatrix ujcOrder ujcOrder =
    diagonal (fun i => ((jcC wq wc i + jcDelta wq wc i : ℝ) : ℂ)) +
      diagonal (fun i => ((jcKappa g i : ℝ) : ℂ)) * pairM jcPair := by
  ext a b
  have ha2 := a.2
  have hb2 := b.2
  simp only [Matrix.submatrix_apply, JCHam, qubCavFreeHam, Matrix.add_apply, Matrix.smul_apply, kron, Matrix.of_apply,
    finProd_symm_order, smul_eq_mul, Matrix.diagonal_mul, pairM, number, create, destroy, cscMatrix_diag, cscMatrix_sub,
    cscMatrix_sup, diag, sub, sup, Matrix.one_apply, Fin.mk.injEq, Matrix.diagonal_apply]
  have hal : alone d a ↔ (a : ℕ) = 0 ∨ (a : ℕ) = 2 * d - 1 := Iff.rfl
  by_cases ha : (a : ℕ) % 2 = 0 <;> by_cases hb : (b : ℕ) % 2 = 0
  · -- both ground
    have hkap : ((jcKappa g a : ℝ) : ℂ) * (if b = jcPair a then 1 else 0) = 0 := by
      by_cases hA : alone d a
      · simp [jcKappa, hA]
      · rw [if_neg, mul_zero]
        intro h
        have := (jcPair_block a hA).2
        rw [← h] at this; tauto
    rw [hkap]
    by_cases hab : a = b
    · subst hab
      simp only [ha, if_true, sigmaz, sigmam, sigmap]
      by_cases hA : alone d a
      · have : (a : ℕ) / 2 = 0 := by rw [hal] at hA; omega
        simp [jcC, jcDelta, hA, ha, this]
      · have h3 : ((a : ℕ) + 1) / 2 = (a : ℕ) / 2 := by omega
        simp [jcC, jcDelta, hA, ha, h3]; ring
    · have h2 : ¬ (a : ℕ) / 2 = (b : ℕ) / 2 := by
        intro h; apply hab; apply Fin.ext; omega
      simp [ha, hb, sigmaz, sigmam, sigmap, h2, hab]
  · -- row ground, column excited
    have hab : ¬ a = b := by rintro rfl; exact hb ha
    have hp : b = jcPair a ↔ (b : ℕ) / 2 + 1 = (a : ℕ) / 2 := by
      rw [Fin.ext_iff]
      rcases jcPair_cases a with k | k | k | k <;> omega
    simp only [ha, hb, if_true, if_false, sigmaz, sigmam, sigmap, hab, hp]
    by_cases h : (b : ℕ) / 2 + 1 = (a : ℕ) / 2
    · have hA : ¬ alone d a := by rw [hal]; omega
      have h3 : ((a : ℕ) + 1) / 2 = (a : ℕ) / 2 := by omega
      simp [h, jcKappa, hA, h3]; rw [← h]; push_cast; ring
    · simp [h]
  · -- row excited, column ground
    have hab : ¬ a = b := by rintro rfl; exact ha hb
    have hp : b = jcPair a ↔ (a : ℕ) / 2 + 1 = (b : ℕ) / 2 := by
      rw [Fin.ext_iff]
      rcases jcPair_cases a with k | k | k | k <;> omega
    simp only [ha, hb, if_true, if_false, sigmaz, sigmam, sigmap, hab, hp]
    by_cases h : (a : ℕ) / 2 + 1 = (b : ℕ) / 2
    · have hA : ¬ alone d a := by rw [hal]; omega
      have h3 : ((a : ℕ) + 1) / 2 = (b : ℕ) / 2 := by omega
      simp [h, jcKappa, hA, h3]; rw [← h]; push_cast; ring
    · simp [h]
  · -- both excited
    have hkap : ((jcKappa g a : ℝ) : ℂ) * (if b = jcPair a then 1 else 0) = 0 := by
      by_cases hA : alone d a
      · simp [jcKappa, hA]
      · rw [if_neg, mul_zero]
        intro h
        have := (jcPair_block a hA).2
        rw [← h] at this; tauto
    rw [hkap]
    by_cases hab : a = b
    · subst hab
      simp only [ha, if_true, if_false, sigmaz, sigmam, sigmap]
      by_cases hA : alone d a
      · simp [jcC, jcDelta, hA, ha]
      · have h3 : ((a : ℕ) + 1) / 2 = (a : ℕ) / 2 + 1 := by omega
        simp [jcC, jcDelta, hA, ha, h3]; ring
    · have h2 : ¬ (a : ℕ) / 2 = (b : ℕ) / 2 := by
        intro h; apply hab; apply Fin.ext; omega
      simp [ha, hb, sigmaz, sigmam, sigmap, h2, hab]

theorem jcW_sq (a : Fin (2 * d)) : jcW wq wc g a ^ 2 = jcDelta wq wc a ^ 2 + jcKappa g a ^ 2 := by
  unfold jcW jcDelta jcKappa
  by_cases h : alone d a
  · simp [h]
  · simp only [h, if_false]
    rw [ujcOmega, Real.sq_sqrt (by positivity), mul_pow, Real.sq_sqrt (by positivity)]
    split_ifs <;> ring

theorem jc_exp (t : ℝ) : unitaryOp ((JCHam (wq / 2) wc g d).submatrix ujcOrder ujcOrder) t =
    diagonal (fun i => Complex.exp (-Complex.I * t * jcC wq wc i) *
      (Complex.cos (jcW wq wc g i * t) - Complex.I * jcDelta wq wc i * Complex.sin (jcW wq wc g i * t) / jcW wq wc g i)) +
    diagonal (fun i => Complex.exp (-Complex.I * t * jcC wq wc i) *
      (-Complex.I * jcKappa g i * Complex.sin (jcW wq wc g i * t) / jcW wq wc g i)) * pairM jcPair := by
  rw [JC_submatrix]
  apply exp_blocks jcPair jcPair_invol
  · intro a
    by_cases h : alone d a
    · rw [jcPair_of_alone a h]
    · have h' : ¬ alone d (jcPair a) := by rwa [jcPair_alone]
      unfold jcC; rw [if_neg h, if_neg h', (jcPair_block a h).1]
  · intro a
    by_cases h : alone d a
    · rw [jcPair_of_alone a h]
    · have h' : ¬ alone d (jcPair a) := by rwa [jcPair_alone]
      unfold jcW; rw [if_neg h, if_neg h', (jcPair_block a h).1]
  · intro a
    by_cases h : alone d a
    · rw [jcPair_of_alone a h]; simp [jcDelta, h]
    · have h' : ¬ alone d (jcPair a) := by rwa [jcPair_alone]
      unfold jcDelta; rw [if_neg h, if_neg h']
      have := (jcPair_block a h).2
      by_cases h2 : (a : ℕ) % 2 = 0
      · rw [if_neg (by tauto), if_pos h2]; ring
      · rw [if_pos (by tauto), if_neg h2]
  · intro a
    by_cases h : alone d a
    · rw [jcPair_of_alone a h]
    · have h' : ¬ alone d (jcPair a) := by rwa [jcPair_alone]
      unfold jcKappa; rw [if_neg h, if_neg h', (jcPair_block a h).1]
  · exact jcW_sq wq wc g

end order

theorem ujc_eq (wq wc g t : ℝ) (d : ℕ) (a b : Fin (2 * d)) :
    ujcEntry wq wc g t d a b = unitaryOp ((JCHam (wq / 2) wc g d).submatrix ujcOrder ujcOrder) t a b := by
  have ha2 := a.2
  have hb2 := b.2
  rw [jc_exp]
  rw [Matrix.add_apply, Matrix.diagonal_mul, Matrix.diagonal_apply]
  simp only [pairM, Matrix.of_apply]
  by_cases hA : alone d a
  · rw [jcPair_of_alone a hA]
    by_cases hab : a = b
    · subst hab
      have e1 : ∀ z : ℂ, Complex.cos z - Complex.I * Complex.sin z = Complex.exp (-z * Complex.I) := by
        intro z; rw [Complex.exp_mul_I, Complex.cos_neg, Complex.sin_neg]; ring
      have e2 : ∀ z : ℂ, Complex.cos z + Complex.I * Complex.sin z = Complex.exp (z * Complex.I) := by
        intro z; rw [Complex.exp_mul_I]; ring
      simp only [if_true, jcKappa, jcC, jcDelta, jcW, hA, ujcEntry]
      rcases hA with h | h
      · have hm : ¬ (a : ℕ) = 2 * d - 1 := by omega
        rw [if_neg (by tauto), if_pos ⟨h, h⟩, if_pos (by omega), e2, ← Complex.exp_add]
        simp only [Complex.ofReal_zero, mul_zero, zero_mul, zero_div, Complex.cos_zero, sub_zero, mul_one, add_zero]
        congr 1; push_cast; ring
      · rw [if_pos ⟨h, h⟩, if_neg (by omega), e1, ← Complex.exp_add]
        simp only [Complex.ofReal_zero, mul_zero, zero_mul, zero_div, Complex.cos_zero, sub_zero, mul_one, add_zero]
        have hd : ((a : ℕ) / 2 : ℕ) + 1 = d := by omega
        have hd' : ((((a : ℕ) / 2 : ℕ) : ℝ) : ℂ) = d - 1 := by
          have : ((((a : ℕ) / 2 : ℕ) + 1 : ℕ) : ℂ) = (d : ℂ) := congrArg Nat.cast hd
          push_cast at this ⊢
          rw [← this]; ring
        congr 1; push_cast at hd' ⊢; rw [hd']; ring
    · rw [if_neg hab, if_neg (Ne.symm hab)]
      have hv : (a : ℕ) ≠ b := fun h => hab (Fin.ext h)
      simp only [ujcEntry]
      rcases hA with h | h
      · rw [if_neg (by omega), if_neg (by omega), if_neg (by omega), if_neg (by omega), if_neg (by omega),
          if_neg (by omega)]; ring
      · rw [if_neg (by omega), if_neg (by omega), if_neg (by omega), if_neg (by omega), if_neg (by omega),
          if_neg (by omega)]; ring
  · have h0 : (a : ℕ) ≠ 0 := fun h => hA (Or.inl h)
    have h1 : (a : ℕ) ≠ 2 * d - 1 := fun h => hA (Or.inr h)
    simp only [ujcEntry, jcKappa, jcC, jcDelta, jcW, hA, if_false]
    rw [if_neg (by omega), if_neg (by omega)]
    have hp := jcPair_cases a
    have hself : ¬ a = jcPair a := fun h => by have := congrArg Fin.val h; omega
    by_cases h2 : (a : ℕ) % 2 = 0
    · have h3 : ((a : ℕ) + 1) / 2 = (a : ℕ) / 2 := by omega
      by_cases hab : a = b
      · subst hab
        rw [if_pos ⟨h2, rfl⟩, if_pos rfl, if_neg hself, if_pos h2, h3]
        rw [mul_zero, add_zero, mul_comm]
        congr 1
        · congr 1; push_cast; ring
        · push_cast; ring
      · have hv : (a : ℕ) ≠ b := fun h => hab (Fin.ext h)
        rw [if_neg (by omega), if_neg (by omega), if_neg hab, zero_add]
        by_cases hb : b = jcPair a
        · have := congrArg Fin.val hb
          rw [if_pos (by omega), if_pos hb, mul_one, h3, mul_comm]
          congr 1
          · congr 1; push_cast; ring
          · push_cast; ring
        · have : (b : ℕ) ≠ jcPair a := fun h => hb (Fin.ext h)
          rw [if_neg (by omega), if_neg (by omega), if_neg hb, mul_zero]
    · by_cases hab : a = b
      · subst hab
        rw [if_neg (by omega), if_pos (by omega), if_pos rfl, if_neg hself,
          if_neg h2]
        rw [mul_zero, add_zero, mul_comm]
        congr 1
        · congr 1; push_cast; ring
        · push_cast; ring
      · have hv : (a : ℕ) ≠ b := fun h => hab (Fin.ext h)
        rw [if_neg (by omega), if_neg (by omega), if_neg (by omega), if_neg hab, zero_add]
        by_cases hb : b = jcPair a
        · have := congrArg Fin.val hb
          have h4 : ((a : ℕ) + 1) / 2 = (b : ℕ) / 2 := by omega
          rw [if_pos (by omega), if_pos hb, mul_one, h4, mul_comm]
          congr 1
          · congr 1; push_cast; ring
          · push_cast; ring
        · have : (b : ℕ) ≠ jcPair a := fun h => hb (Fin.ext h)
          rw [if_neg (by omega), if_neg hb, mul_zero]

/-! ## C48 -/

/-- **C48 (partial).**  Whenever `UJC` returns finite numbers they are the exponential of the Jaynes-Cummings Hamiltonian with
`wq/2 sigma_z`, in the basis order `|g,0>, |e,0>, |g,1>, ...`.  The full claim, with `JCHam wq`, fails
(`C48_not_JCHam`), and the function returns no number for a resonant uncoupled system (`C48_nan`). -/
theorem C48_exp_partial (wq wc g t : ℝ) (d : ℕ) (U : Op (2 * d)) (h : UJC wq wc g t d = some U) :
    U = (unitaryOp (JCHam (wq / 2) wc g d) t).submatrix ujcOrder ujcOrder := by
  unfold UJC at h
  split_ifs at h
  rw [← unitaryOp_submatrix _ _ ujcOrder_injective]
  ext a b
  rw [← ujc_eq, ← Option.some.inj h, Matrix.of_apply]

theorem UJC_apply {wq wc g t : ℝ} {d : ℕ} {U : Op (2 * d)} (h : UJC wq wc g t d = some U) (i j : Fin (2 * d)) :
    U i j = ujcEntry wq wc g t d i j := by
  unfold UJC at h
  split_ifs at h
  rw [← Option.some.inj h, Matrix.of_apply]

/-- `UJC` returns finite numbers unless the system is resonant and uncoupled. -/
theorem C48_defined_partial (wq wc g t : ℝ) (d : ℕ) (hd : 0 < d) (h : g ≠ 0 ∨ wq ≠ wc ∨ d = 1) :
    (UJC wq wc g t d).isSome := by
  unfold UJC
  rw [if_neg (by omega), if_neg]; · rfl
  rintro ⟨h1, h2, h3⟩
  rcases h with h | h | h
  · exact h h2
  · exact h (by linarith)
  · omega

/-- For a resonant uncoupled system the entries are `0/0`, although the evolution exists. -/
theorem C48_nan (w t : ℝ) (d : ℕ) (hd : 2 ≤ d) : UJC w w 0 t d = none := by
  unfold UJC
  rw [if_neg (by omega), if_pos ⟨hd, rfl, by ring⟩]

theorem isHermitian_kron {m n : ℕ} {A : Op m} {B : Op n} (hA : A.IsHermitian) (hB : B.IsHermitian) :
    (kron A B).IsHermitian := by
  ext i j
  have h1 := congrFun (congrFun hA (finProdFinEquiv.symm i).1) (finProdFinEquiv.symm j).1
  have h2 := congrFun (congrFun hB (finProdFinEquiv.symm i).2) (finProdFinEquiv.symm j).2
  simp only [Matrix.conjTranspose_apply, kron, Matrix.of_apply, star_mul'] at *
  rw [h1, h2]

theorem conjTranspose_kron {m n : ℕ} (A : Op m) (B : Op n) : (kron A B)ᴴ = kron Aᴴ Bᴴ := by
  ext i j
  simp only [Matrix.conjTranspose_apply, kron, Matrix.of_apply, star_mul']

theorem isHermitian_number (d : ℕ) : (number d).IsHermitian := by
  ext i j
  simp only [number, cscMatrix_diag, diag, Matrix.conjTranspose_apply, Matrix.of_apply]
  by_cases h : (i : ℕ) = j
  · rw [if_pos h, if_pos h.symm, h]; simp
  · rw [if_neg h, if_neg (Ne.symm h), star_zero]

theorem isHermitian_sigmaz : sigmaz.IsHermitian := by
  ext i j; fin_cases i <;> fin_cases j <;> simp [sigmaz]
theorem isHermitian_sigmax : sigmax.IsHermitian := by
  ext i j; fin_cases i <;> fin_cases j <;> simp [sigmax]
theorem conjTranspose_sigmam : sigmamᴴ = sigmap := by
  ext i j; fin_cases i <;> fin_cases j <;> simp [sigmam, sigmap]
theorem conjTranspose_create (d : ℕ) : (create d)ᴴ = destroy d := by
  ext i j
  simp only [create, destroy, cscMatrix_sub, cscMatrix_sup, sub, sup, Matrix.conjTranspose_apply, Matrix.of_apply]
  split_ifs <;> simp

theorem isHermitian_free (wq wc : ℝ) (d : ℕ) : ((qubCavFreeHam wq wc d).1 + (qubCavFreeHam wq wc d).2).IsHermitian := by
  have h1 := isHermitian_kron Matrix.isHermitian_one (isHermitian_number d) (m := 2)
  have h2 := isHermitian_kron isHermitian_sigmaz (Matrix.isHermitian_one (n := Fin d) (α := ℂ))
  simp only [Matrix.IsHermitian, qubCavFreeHam, Matrix.conjTranspose_add, Matrix.conjTranspose_smul] at *
  rw [h1, h2]; simp

/-- The Jaynes-Cummings, anti-Jaynes-Cummings and Rabi Hamiltonians are Hermitian. -/
theorem C48_hermitian (wq wc g : ℝ) (d : ℕ) : (JCHam wq wc g d).IsHermitian ∧ (aJCHam wq wc g d).IsHermitian ∧
    (RabiHam wq wc g d).IsHermitian := by
  have hf := isHermitian_free wq wc d
  have hp : sigmapᴴ = sigmam := by rw [← conjTranspose_sigmam, Matrix.conjTranspose_conjTranspose]
  have hd : (destroy d)ᴴ = create d := by rw [← conjTranspose_create, Matrix.conjTranspose_conjTranspose]
  refine ⟨hf.add ?_, hf.add ?_, hf.add ?_⟩
  all_goals
    simp only [Matrix.IsHermitian, Matrix.conjTranspose_add, Matrix.conjTranspose_smul, conjTranspose_kron,
      conjTranspose_sigmam, conjTranspose_create, hp, hd, isHermitian_sigmax.eq, Complex.star_def, Complex.conj_ofReal]
    rw [add_comm]

/-- **C48.** The matrix is unitary. -/
theorem C48_unitary (wq wc g t : ℝ) (d : ℕ) (U : Op (2 * d)) (h : UJC wq wc g t d = some U) :
    hc U * U = 1 ∧ U * hc U = 1 := by
  have hu := C41_unitary ((JCHam (wq / 2) wc g d).submatrix ujcOrder ujcOrder)
    ((C48_hermitian (wq / 2) wc g d).1.submatrix _) t
  rw [unitaryOp_submatrix _ _ ujcOrder_injective, ← C48_exp_partial wq wc g t d U h] at hu
  exact hu

/-- **C48.** At time zero the matrix is the identity. -/
theorem C48_identity (wq wc g : ℝ) (d : ℕ) (U : Op (2 * d)) (h : UJC wq wc g 0 d = some U) : U = 1 := by
  rw [C48_exp_partial wq wc g 0 d U h, C41_zero]
  exact Matrix.submatrix_one _ ujcOrder_injective

/-- **C48.** Evolutions compose. -/
theorem C48_compose (wq wc g s t : ℝ) (d : ℕ) (U V W : Op (2 * d)) (hU : UJC wq wc g s d = some U)
    (hV : UJC wq wc g t d = some V) (hW : UJC wq wc g (s + t) d = some W) : U * V = W := by
  rw [C48_exp_partial _ _ _ _ _ _ hU, C48_exp_partial _ _ _ _ _ _ hV, C48_exp_partial _ _ _ _ _ _ hW]
  simp only [← unitaryOp_submatrix _ _ ujcOrder_injective]
  exact C41_compose _ s t

/-- The full claim is false: `UJC` and `JCHam` with the same arguments disagree (`JCHam` lacks the factor 1/2), in every
order of the basis. -/
theorem C48_not_JCHam : ∃ (wq wc g t : ℝ) (d : ℕ) (U : Op (2 * d)), UJC wq wc g t d = some U ∧
    ∀ f : Fin (2 * d) → Fin (2 * d), U ≠ (unitaryOp (JCHam wq wc g d) t).submatrix f f := by
  obtain ⟨U, hU⟩ := Option.isSome_iff_exists.mp (C48_defined_partial 1 0 0 Real.pi 1 (by norm_num) (by simp))
  obtain ⟨V, hV⟩ := Option.isSome_iff_exists.mp (C48_defined_partial 2 0 0 Real.pi 1 (by norm_num) (by simp))
  refine ⟨1, 0, 0, Real.pi, 1, U, hU, ?_⟩
  intro f hf
  have hVe := C48_exp_partial _ _ _ _ _ _ hV
  have hVd : ∀ a, V a a = -1 := by
    intro a
    rw [UJC_apply hV]
    fin_cases a <;> simp [ujcEntry]
  have hU0 : U 0 0 = Complex.I := by
    rw [UJC_apply hU]
    simp [ujcEntry]
    have : ((2 : ℂ)⁻¹ * (Real.pi : ℂ)) = Real.pi / 2 := by ring
    simp [this]
  have hall : ∀ b, unitaryOp (JCHam 1 0 0 1) Real.pi b b = -1 := by
    intro b
    obtain ⟨a, rfl⟩ := (Finite.injective_iff_bijective.mp (ujcOrder_injective (d := 1))).2 b
    rw [← hVd a, hVe]
    norm_num
  have := congrFun (congrFun hf 0) 0
  rw [Matrix.submatrix_apply, hall, hU0] at this
  have := congrArg Complex.im this
  simp at this

/-- `RabiHam` is the sum of the two couplings over the free part: the coupling decomposes into rotating and counter-rotating
terms. -/
theorem C48_rabi (wq wc g : ℝ) (d : ℕ) : RabiHam wq wc g d =
    JCHam wq wc g d + aJCHam wq wc g d - ((qubCavFreeHam wq wc d).1 + (qubCavFreeHam wq wc d).2) := by
  have hx : sigmax = sigmam + sigmap := by
    ext i j; fin_cases i <;> fin_cases j <;> simp [sigmax, sigmam, sigmap]
  ext i j
  simp only [RabiHam, JCHam, aJCHam, Matrix.add_apply, Matrix.sub_apply, Matrix.smul_apply, kron, Matrix.of_apply, hx,
    smul_eq_mul]
  ring

/-- A resonant coupled system: a full Rabi swap of one excitation, `|e,0> -> -i |g,1>` after `g t = pi / 2`. -/
example : ∃ U, UJC 1 1 1 (Real.pi / 2) 2 = some U ∧ U 1 1 = 0 ∧ U 2 1 = -Complex.I * Complex.exp (-Complex.I * (Real.pi / 4)) ∧
    U ≠ 1 := by
  obtain ⟨U, hU⟩ := Option.isSome_iff_exists.mp (C48_defined_partial 1 1 1 (Real.pi / 2) 2 (by norm_num) (by simp))
  have e0 : U 1 1 = 0 := by
    rw [UJC_apply hU]; simp [ujcEntry, ujcOmega]
  refine ⟨U, hU, e0, ?_, ?_⟩
  · rw [UJC_apply hU]; simp [ujcEntry, ujcOmega]
    congr 1; ring
  · intro h; rw [h] at e0; simp at e0

end Verif.Toolbox
