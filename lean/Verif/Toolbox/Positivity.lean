import Verif.Toolbox.EvolutionProps
import Verif.Toolbox.PowExp
import Mathlib.LinearAlgebra.Matrix.PosDef
import Mathlib.Analysis.Complex.Order

/-!
# C55: open evolution with non-negative rates keeps states positive (it is completely positive)
-/
namespace Verif.Toolbox
open Matrix NormedSpace Filter Topology
open scoped ComplexOrder

variable {n : ℕ}

/-! ## Specification -/

/-- Block `(a, b)` of an operator on an `m`-level ancilla and the system. -/
def ancBlock {m : ℕ} (X : Matrix (Fin m × Fin n) (Fin m × Fin n) ℂ) (a b : Fin m) : Op n :=
  Matrix.of fun i j => X (a, i) (b, j)

/-- The superoperator applied to the system only, an `m`-level ancilla left alone. -/
def withAncilla {m : ℕ} (L : Op (n * n)) (X : Matrix (Fin m × Fin n) (Fin m × Fin n) ℂ) :
    Matrix (Fin m × Fin n) (Fin m × Fin n) ℂ :=
  Matrix.of fun p q => vec2Mat (L * mat2Vec (ancBlock X p.1 q.1)) p.2 q.2

/-- Complete positivity: positive operators stay positive, also together with an ancilla of any size. -/
def CompletelyPositive (L : Op (n * n)) : Prop :=
  ∀ (m : ℕ) (X : Matrix (Fin m × Fin n) (Fin m × Fin n) ℂ), X.PosSemidef → (withAncilla L X).PosSemidef

/-- The superoperator is a generator in Lindblad form. -/
def LindbladForm (L : Op (n * n)) : Prop :=
  ∃ (G : Op n) (Ks : List (Op n)), ∀ X, vec2Mat (L * mat2Vec X) = G * X + X * Gᴴ + (Ks.map fun K => K * X * Kᴴ).sum

/-! ## Kraus form -/

def KrausForm (L : Op (n * n)) : Prop := ∃ Ks : List (Op n), ∀ X, act L X = (Ks.map fun K => K * X * Kᴴ).sum

theorem withAncilla_eq {m : ℕ} (L : Op (n * n)) (X : Matrix (Fin m × Fin n) (Fin m × Fin n) ℂ) :
    withAncilla L X = Matrix.of fun p q => act L (ancBlock X p.1 q.1) p.2 q.2 := rfl

/-- an operator of the system next to an ancilla -/
def amp (m : ℕ) (K : Op n) : Matrix (Fin m × Fin n) (Fin m × Fin n) ℂ :=
  Matrix.of fun p q => if p.1 = q.1 then K p.2 q.2 else 0

theorem amp_conj {m : ℕ} (K : Op n) (X : Matrix (Fin m × Fin n) (Fin m × Fin n) ℂ) (p q : Fin m × Fin n) :
    (amp m K * X * (amp m K)ᴴ) p q = (K * ancBlock X p.1 q.1 * Kᴴ) p.2 q.2 := by
  simp only [Matrix.mul_apply, conjTranspose_apply, amp, of_apply, Fintype.sum_prod_type, ancBlock]
  rw [Finset.sum_eq_single q.1]
  · refine Finset.sum_congr rfl fun j _ => ?_
    rw [if_pos rfl]
    congr 1
    rw [Finset.sum_eq_single p.1]
    · simp
    · intro b _ hb; simp [Ne.symm hb]
    · simp
  · intro b _ hb; simp [Ne.symm hb]
  · simp

theorem KrausForm.cp {L : Op (n * n)} (h : KrausForm L) : CompletelyPositive L := by
  obtain ⟨Ks, hK⟩ := h
  intro m X hX
  have h1 : ∀ Ks : List (Op n), (Ks.map fun K => amp m K * X * (amp m K)ᴴ).sum.PosSemidef ∧
      ∀ p q, (Ks.map fun K => amp m K * X * (amp m K)ᴴ).sum p q
        = (Ks.map fun K => K * ancBlock X p.1 q.1 * Kᴴ).sum p.2 q.2 := by
    intro Ks
    induction Ks with
    | nil => exact ⟨PosSemidef.zero, fun _ _ => rfl⟩
    | cons K Ks ih =>
      refine ⟨(hX.mul_mul_conjTranspose_same (amp m K)).add ih.1, fun p q => ?_⟩
      simp only [List.map_cons, List.sum_cons, Matrix.add_apply, amp_conj, ih.2]
  have h2 : withAncilla L X = (Ks.map fun K => amp m K * X * (amp m K)ᴴ).sum := by
    ext p q
    rw [(h1 Ks).2, ← hK]
    rfl
  rw [h2]
  exact (h1 Ks).1

theorem act_mul (L M : Op (n * n)) (X : Op n) : act (L * M) X = act L (act M X) := by
  rw [act, act, mat2Vec_act, Matrix.mul_assoc]

theorem act_one (X : Op n) : act 1 X = X := by rw [act, Matrix.one_mul, C39_vec2Mat_mat2Vec]

theorem cp_one : CompletelyPositive (1 : Op (n * n)) :=
  KrausForm.cp ⟨[1], fun X => by simp [act_one]⟩

theorem cp_mul {L M : Op (n * n)} (hL : CompletelyPositive L) (hM : CompletelyPositive M) : CompletelyPositive (L * M) := by
  intro m X hX
  have := hL m _ (hM m X hX)
  convert this using 1
  ext p q
  simp only [withAncilla_eq, of_apply, act_mul]
  rfl

theorem cp_pow {L : Op (n * n)} (hL : CompletelyPositive L) (k : ℕ) : CompletelyPositive (L ^ k) := by
  induction k with
  | zero => exact cp_one
  | succ k ih => rw [pow_succ]; exact cp_mul ih hL

/-! ## Limits -/

theorem posSemidef_of_tendsto {ι : Type*} [Fintype ι] {M : ℕ → Matrix ι ι ℂ} {A : Matrix ι ι ℂ}
    (h : ∀ p q, Tendsto (fun k => M k p q) atTop (𝓝 (A p q))) (hM : ∀ᶠ k in atTop, (M k).PosSemidef) : A.PosSemidef := by
  rw [posSemidef_iff_dotProduct_mulVec]
  constructor
  · ext p q
    rw [conjTranspose_apply]
    refine tendsto_nhds_unique_of_eventuallyEq ((continuous_star.tendsto _).comp (h q p)) (h p q) ?_
    filter_upwards [hM] with k hk
    exact hk.isHermitian.apply p q
  · intro x
    have h1 : Tendsto (fun k => star x ⬝ᵥ (M k *ᵥ x)) atTop (𝓝 (star x ⬝ᵥ (A *ᵥ x))) := by
      simp only [dotProduct, mulVec]
      exact tendsto_finsetSum _ fun i _ => (tendsto_finsetSum _ fun j _ => (h i j).mul_const _).const_mul _
    refine ge_of_tendsto h1 ?_
    filter_upwards [hM] with k hk
    exact hk.dotProduct_mulVec_nonneg x

theorem cp_of_tendsto {M : ℕ → Op (n * n)} {A : Op (n * n)} (h : Tendsto M atTop (𝓝 A))
    (hM : ∀ᶠ k in atTop, CompletelyPositive (M k)) : CompletelyPositive A := by
  intro m X hX
  refine posSemidef_of_tendsto (M := fun k => withAncilla (M k) X) (fun p q => ?_) (hM.mono fun k hk => hk m X hX)
  simp only [withAncilla, of_apply, vec2Mat, Matrix.mul_apply, transpose_apply]
  exact tendsto_finsetSum _ fun j _ =>
    ((((continuous_apply_apply _ _).tendsto A).comp h)).mul_const _

/-! ## The exponential of a Lindblad generator -/

theorem krausForm_step (L : Op (n * n)) (G : Op n) (Ks : List (Op n))
    (h : ∀ X, act L X = G * X + X * Gᴴ + (Ks.map fun K => K * X * Kᴴ).sum) (s : ℝ) (hs : 0 ≤ s) :
    KrausForm (1 + (s : ℂ) • L + ((s : ℂ) ^ 2) • prepostSO G (some Gᴴ)) := by
  refine ⟨(1 + (s : ℂ) • G) :: Ks.map fun K => ((Real.sqrt s : ℝ) : ℂ) • K, fun X => ?_⟩
  have hsum : ∀ Ks : List (Op n),
      ((Ks.map fun K => ((Real.sqrt s : ℝ) : ℂ) • K).map fun K => K * X * Kᴴ).sum
        = (s : ℂ) • (Ks.map fun K => K * X * Kᴴ).sum := by
    intro Ks
    induction Ks with
    | nil => simp
    | cons K Ks ih =>
      simp only [List.map_cons, List.sum_cons, ih, smul_add]
      congr 1
      rw [conjTranspose_smul, Matrix.smul_mul, Matrix.smul_mul, Matrix.mul_smul, smul_smul]
      congr 1
      rw [Complex.star_def, Complex.conj_ofReal, ← Complex.ofReal_mul, Real.mul_self_sqrt hs]
  rw [List.map_cons, List.sum_cons, hsum, act_add, act_add, act_one, act_smul, act_smul, act_prepost, h]
  rw [conjTranspose_add, conjTranspose_one, conjTranspose_smul, Complex.star_def, Complex.conj_ofReal, Matrix.add_mul,
    Matrix.add_mul, Matrix.mul_add, Matrix.mul_add]
  simp only [Matrix.one_mul, Matrix.mul_one, Matrix.smul_mul, Matrix.mul_smul]
  module

open scoped Matrix.Norms.Operator in
theorem tendsto_step (L E : Op (n * n)) (t : ℝ) (hn : n ≠ 0) :
    Tendsto (fun k : ℕ => (1 + ((t / k : ℝ) : ℂ) • L + (((t / k : ℝ) : ℂ) ^ 2) • E) ^ k) atTop
      (𝓝 (exp ((t : ℂ) • L))) := by
  have : Nonempty (Fin (n * n)) := ⟨⟨0, Nat.mul_pos (Nat.pos_of_ne_zero hn) (Nat.pos_of_ne_zero hn)⟩⟩
  have : NormOneClass (Op (n * n)) := Matrix.linfty_opNormOneClass
  have h := tendsto_pow_exp ((t : ℂ) • L) (((t : ℂ) ^ 2) • E)
  refine h.congr fun k => ?_
  congr 1
  congr 1
  · congr 1
    ext i j
    simp only [Matrix.smul_apply, Complex.real_smul, smul_eq_mul]
    push_cast
    ring
  · ext i j
    simp only [Matrix.smul_apply, Complex.real_smul, smul_eq_mul]
    push_cast
    ring

/-- **C55**: evolution generated by a superoperator in Lindblad form is completely positive, for every `t ≥ 0`. -/
theorem cp_exp (L : Op (n * n)) (h : LindbladForm L) (t : ℝ) (ht : 0 ≤ t) : CompletelyPositive (exp ((t : ℂ) • L)) := by
  by_cases hn : n = 0
  · subst hn
    rw [show exp ((t : ℂ) • L) = (1 : Op (0 * 0)) from Matrix.ext fun i => absurd i.2 (by simp)]
    exact cp_one
  obtain ⟨G, Ks, hG⟩ := h
  refine cp_of_tendsto (tendsto_step L (prepostSO G (some Gᴴ)) t hn) (Eventually.of_forall fun k => cp_pow ?_ k)
  exact (krausForm_step L G Ks hG _ (div_nonneg ht (Nat.cast_nonneg k))).cp

/-! ## The Liouvillian is in Lindblad form -/

theorem lindblad_add {L M : Op (n * n)} (hL : LindbladForm L) (hM : LindbladForm M) : LindbladForm (L + M) := by
  obtain ⟨G, Ks, h⟩ := hL
  obtain ⟨G', Ks', h'⟩ := hM
  refine ⟨G + G', Ks ++ Ks', fun X => ?_⟩
  have := act_add L M X
  rw [act, act, act, h, h'] at this
  rw [this, List.map_append, List.sum_append, conjTranspose_add, Matrix.add_mul, Matrix.mul_add]
  abel

theorem lindblad_smul {L : Op (n * n)} (r : ℝ) (hr : 0 ≤ r) (hL : LindbladForm L) : LindbladForm ((r : ℂ) • L) := by
  obtain ⟨G, Ks, h⟩ := hL
  refine ⟨(r : ℂ) • G, Ks.map fun K => ((Real.sqrt r : ℝ) : ℂ) • K, fun X => ?_⟩
  have := act_smul (r : ℂ) L X
  rw [act, act, h] at this
  rw [this, smul_add, smul_add, Matrix.smul_mul, conjTranspose_smul, Matrix.mul_smul, Complex.star_def,
    Complex.conj_ofReal]
  congr 1
  clear h this
  induction Ks with
  | nil => simp
  | cons K Ks ih =>
    simp only [List.map_cons, List.sum_cons, ← ih, smul_add]
    congr 1
    rw [conjTranspose_smul, Matrix.smul_mul, Matrix.smul_mul, Matrix.mul_smul, smul_smul]
    congr 1
    rw [Complex.star_def, Complex.conj_ofReal, ← Complex.ofReal_mul, Real.mul_self_sqrt hr]

theorem lindblad_ham (H : Option (Op n)) (hH : ∀ h, H = some h → h.IsHermitian) : LindbladForm (hamPart H) := by
  cases H with
  | none => exact ⟨0, [], fun X => by
      have := act_zero X
      rw [act] at this
      rw [hamPart, this]; simp⟩
  | some H =>
    refine ⟨(-Complex.I) • H, [], fun X => ?_⟩
    have := act_hamPart H X
    rw [act] at this
    rw [this, conjTranspose_smul, (hH H rfl).eq, Matrix.smul_mul, Matrix.mul_smul]
    simp only [RCLike.star_def, map_neg, Complex.conj_I, neg_neg, List.map_nil, List.sum_nil]
    module

theorem lindblad_dissipator (A : Op n) (d : Bool) : LindbladForm (dissipator A none d) := by
  have h1 : LindbladForm (dissipator A none false) := by
    refine ⟨(-(1 / 2) : ℂ) • (Aᴴ * A), [A], fun X => ?_⟩
    have := act_dissipator A X false
    rw [act] at this
    rw [this, conjTranspose_smul, conjTranspose_mul, conjTranspose_conjTranspose, Matrix.smul_mul, Matrix.mul_smul]
    have hs : star (-(1 / 2) : ℂ) = -(1 / 2) := by simp
    rw [hs]
    simp only [Bool.false_eq_true, if_false, add_zero, one_smul, List.map_cons, List.map_nil, List.sum_cons, List.sum_nil]
    module
  cases d with
  | false => exact h1
  | true =>
    have : dissipator A none true = ((2 : ℝ) : ℂ) • dissipator A none false := by
      refine act_injective fun X => ?_
      rw [act_smul, act_dissipator, act_dissipator]
      norm_num
    rw [this]
    exact lindblad_smul 2 (by norm_num) h1

/-- **C55**: for a Hermitian Hamiltonian, collapse operators and non-negative rates, the evolution over any time `t ≥ 0` is
completely positive. -/
theorem C55_completely_positive (H : Option (Op n)) (hH : ∀ h, H = some h → h.IsHermitian)
    (cs : Option (List (Collapse n))) (rates : Option (List ℝ)) (hr : ∀ rs, rates = some rs → ∀ r ∈ rs, 0 ≤ r)
    (double : Bool) (hc : ∀ l, cs = some l → ∀ c ∈ l, CollapseOk LindbladForm c) (L : Op (n * n))
    (h : Liouvillian H cs rates double = some L) (t : ℝ) (ht : 0 ≤ t) : CompletelyPositive (exp ((t : ℂ) • L)) := by
  refine cp_exp L ?_ t ht
  exact Liouvillian_ind LindbladForm (fun _ _ => lindblad_add) double (fun A => lindblad_dissipator A double) H
    (lindblad_ham H hH) cs rates (fun r ⟨rs, hrs, hm⟩ _ => lindblad_smul r (hr rs hrs r hm)) hc L h

theorem CompletelyPositive.positive {L : Op (n * n)} (h : CompletelyPositive L) (X : Op n) (hX : X.PosSemidef) :
    (vec2Mat (L * mat2Vec X)).PosSemidef := by
  have h1 := h 1 (X.submatrix Prod.snd Prod.snd) (hX.submatrix _)
  have h2 := h1.submatrix (fun i : Fin n => ((0 : Fin 1), i))
  exact h2

/-- **C55**: density matrices evolve into density matrices (positive, trace one), for every time `t ≥ 0`. -/
theorem C55_density_matrix (H : Option (Op n)) (hH : ∀ h, H = some h → h.IsHermitian) (As : List (Op n))
    (rates : Option (List ℝ)) (hr : ∀ rs, rates = some rs → ∀ r ∈ rs, 0 ≤ r) (double : Bool) (L : Op (n * n))
    (h : Liouvillian H (some (As.map .op)) rates double = some L) (t : ℝ) (ht : 0 ≤ t)
    (rho : Op n) (hp : rho.PosSemidef) (h1 : rho.trace = 1) :
    (vec2Mat (exp ((t : ℂ) • L) * mat2Vec rho)).PosSemidef ∧ (vec2Mat (exp ((t : ℂ) • L) * mat2Vec rho)).trace = 1 := by
  have hok : ∀ P : Op (n * n) → Prop, ∀ l, some (As.map Collapse.op) = some l → ∀ c ∈ l, CollapseOk P c := by
    rintro P l ⟨⟩ c hc
    obtain ⟨A, _, rfl⟩ := List.mem_map.mp hc
    trivial
  exact ⟨(C55_completely_positive H hH _ rates hr double (hok _) L h t ht).positive rho hp,
    (C40_exp_trace L (C40_traceless H _ rates double (hok _) L h) t rho).trans h1⟩

/-- **C55**: all states returned by `evolveOpen` (`evolution.py`) are density matrices when the initial one is. -/
theorem C55_trajectory (H : Option (Op n)) (hH : ∀ h, H = some h → h.IsHermitian) (As : List (Op n))
    (rates : Option (List ℝ)) (hr : ∀ rs, rates = some rs → ∀ r ∈ rs, 0 ≤ r) (double : Bool) (L : Op (n * n))
    (h : Liouvillian H (some (As.map .op)) rates double = some L) (dt : ℝ) (ht : 0 ≤ dt) (k : ℕ)
    (rho : Op n) (hp : rho.PosSemidef) (h1 : rho.trace = 1) :
    ∀ Y ∈ evolveOpen (exp ((dt : ℂ) • L)) k (mat2Vec rho), Y.PosSemidef ∧ Y.trace = 1 := by
  intro Y hY
  obtain ⟨j, hj, rfl⟩ := List.mem_iff_getElem.mp hY
  have h2 := evolveOpen_get (exp ((dt : ℂ) • L)) k (mat2Vec rho) j (by rwa [evolveOpen_length] at hj)
  rw [List.getElem?_eq_getElem hj, Option.some.injEq, exp_pow] at h2
  rw [h2]
  exact C55_density_matrix H hH As rates hr double L h _ (by positivity) rho hp h1

/-! ## The decaying qubit, solved exactly -/

theorem exp_mul_eigen {m : ℕ} (A : Op m) (v : Ket m) (c : ℂ) (h : A * v = c • v) : exp A * v = Complex.exp c • v := by
  have hp : ∀ k : ℕ, A ^ k * v = c ^ k • v := by
    intro k
    induction k with
    | zero => simp
    | succ k ih => rw [pow_succ', Matrix.mul_assoc, ih, Matrix.mul_smul, h, smul_smul, pow_succ]
  have h1 : HasSum (fun k : ℕ => (((k.factorial : ℂ)⁻¹) • A ^ k) * v) (exp A * v) :=
    (hasSum_exp A).map (AddMonoidHom.mk' (fun Y => Y * v) (fun a b => Matrix.add_mul a b v))
      (continuous_id.matrix_mul continuous_const)
  have h2 : HasSum (fun k : ℕ => (((k.factorial : ℂ)⁻¹) • c ^ k) • v) (Complex.exp c • v) := by
    have := exp_series_hasSum_exp' (𝕂 := ℂ) c
    rw [← Complex.exp_eq_exp_ℂ] at this
    exact this.smul_const v
  refine h1.unique ?_
  convert h2 using 1
  funext k
  rw [Matrix.smul_mul, hp, smul_smul, smul_eq_mul]

/-- **C55**: the excited state of a qubit with decay rate `r` (any sign): populations `1 - e^{-rt}` and `e^{-rt}`. -/
theorem C55_decay (r t : ℝ) : ∃ L, Liouvillian (n := 2) none (some [.op !![0, 1; 0, 0]]) (some [r]) = some L ∧
    vec2Mat (exp ((t : ℂ) • L) * mat2Vec (!![0, 0; 0, 1] : Op 2))
      = !![((1 - Real.exp (-r * t) : ℝ) : ℂ), 0; 0, ((Real.exp (-r * t) : ℝ) : ℂ)] := by
  refine ⟨_, rfl, ?_⟩
  set L : Op (2 * 2) := hamPart none + (r : ℂ) • collapsePart false (Collapse.op (!![0, 1; 0, 0] : Op 2)) with hL
  have hact : ∀ X : Op 2, act L X = (r : ℂ) • (!![0, 1; 0, 0] * X * !![0, 0; 1, 0]
      - (1 / 2 : ℂ) • (!![0, 0; 0, 1] * X + X * !![0, 0; 0, 1])) := by
    intro X
    have hh : (!![0, 1; 0, 0] : Op 2)ᴴ = !![0, 0; 1, 0] := by
      ext i j; fin_cases i <;> fin_cases j <;> simp [conjTranspose_apply]
    have hm : (!![0, 0; 1, 0] * !![0, 1; 0, 0] : Op 2) = !![0, 0; 0, 1] := by
      ext i j; fin_cases i <;> fin_cases j <;> simp [Matrix.mul_apply, Fin.sum_univ_two]
    rw [hL, hamPart, zero_add, act_smul, collapsePart, act_dissipator, hh, hm]
    simp
  have h0 : L * mat2Vec (!![1, 0; 0, 0] : Op 2) = (0 : ℂ) • mat2Vec (!![1, 0; 0, 0] : Op 2) := by
    rw [← mat2Vec_act, ← mat2Vec_smul, hact]
    congr 1
    ext i j; fin_cases i <;> fin_cases j <;> simp [Matrix.mul_apply, Fin.sum_univ_two]
  have h1 : L * mat2Vec (!![-1, 0; 0, 1] : Op 2) = (-r : ℂ) • mat2Vec (!![-1, 0; 0, 1] : Op 2) := by
    rw [← mat2Vec_act, ← mat2Vec_smul, hact]
    congr 1
    ext i j; fin_cases i <;> fin_cases j <;> simp [Matrix.mul_apply, Fin.sum_univ_two]
    norm_num
  have hsplit : (!![0, 0; 0, 1] : Op 2) = !![1, 0; 0, 0] + !![-1, 0; 0, 1] := by
    ext i j; fin_cases i <;> fin_cases j <;> simp
  have e0 := exp_mul_eigen ((t : ℂ) • L) _ ((t : ℂ) * 0) (by rw [Matrix.smul_mul, h0, smul_smul])
  have e1 := exp_mul_eigen ((t : ℂ) • L) _ ((t : ℂ) * -r) (by rw [Matrix.smul_mul, h1, smul_smul])
  rw [hsplit, mat2Vec_add, Matrix.mul_add]
  have e2 : exp ((t : ℂ) • L) * mat2Vec (!![1, 0; 0, 0] : Op 2) + exp ((t : ℂ) • L) * mat2Vec (!![-1, 0; 0, 1] : Op 2)
      = mat2Vec (!![((1 - Real.exp (-r * t) : ℝ) : ℂ), 0; 0, ((Real.exp (-r * t) : ℝ) : ℂ)] : Op 2) := by
    rw [e0, e1, ← mat2Vec_smul, ← mat2Vec_smul, ← mat2Vec_add]
    congr 1
    have : (t : ℂ) * -r = ((-r * t : ℝ) : ℂ) := by push_cast; ring
    rw [this, mul_zero, Complex.exp_zero, one_smul]
    ext i j
    fin_cases i <;> fin_cases j <;> simp [sub_eq_add_neg]
  refine (congrArg vec2Mat e2).trans (C39_vec2Mat_mat2Vec _)

/-- The sign condition on the rates in `C55_completely_positive` is needed: with a negative rate the excited state of a qubit
leaves the positive matrices at every time `t > 0`.  (The code accepts negative rates.) -/
theorem C55_negative_rate (r t : ℝ) (hr : r < 0) (ht : 0 < t) :
    ∃ L, Liouvillian (n := 2) none (some [.op !![0, 1; 0, 0]]) (some [r]) = some L ∧ (!![0, 0; 0, 1] : Op 2).PosSemidef ∧
      ¬ (vec2Mat (exp ((t : ℂ) • L) * mat2Vec (!![0, 0; 0, 1] : Op 2))).PosSemidef := by
  obtain ⟨L, hL, h⟩ := C55_decay r t
  refine ⟨L, hL, ?_, fun hp => ?_⟩
  · have : (!![0, 0; 0, 1] : Op 2) = diagonal ![0, 1] := by
      ext i j; fin_cases i <;> fin_cases j <;> simp
    rw [this]
    exact PosSemidef.diagonal fun i => by fin_cases i <;> simp
  · rw [h] at hp
    have h0 := hp.diag_nonneg (i := 0)
    simp only [of_apply, cons_val', cons_val_zero, Complex.zero_le_real] at h0
    have : 1 < Real.exp (-r * t) := by
      rw [Real.one_lt_exp_iff]; nlinarith
    linarith

/-- the hypotheses of `C55_density_matrix` are met by a decaying qubit with a Hermitian Hamiltonian -/
example (t : ℝ) (ht : 0 ≤ t) : ∃ L, Liouvillian (some !![1, Complex.I; -Complex.I, -1]) (some [.op !![0, 1; 0, 0]]) (some [2])
      = some L ∧ (vec2Mat (exp ((t : ℂ) • L) * mat2Vec (diagonal ![0, 1] : Op 2))).PosSemidef := by
  refine ⟨_, rfl, ?_⟩
  refine (C55_density_matrix (some !![1, Complex.I; -Complex.I, -1]) ?_ [!![0, 1; 0, 0]] (some [2]) ?_ false _ rfl t ht _
    (PosSemidef.diagonal fun i => by fin_cases i <;> simp) (by simp [Matrix.trace_fin_two])).1
  · rintro _ ⟨⟩
    ext i j; fin_cases i <;> fin_cases j <;> simp [conjTranspose_apply]
  · rintro _ ⟨⟩ r hr
    simp at hr; subst hr; norm_num

end Verif.Toolbox
