import Verif.Toolbox.EvolutionLemmas
import Mathlib.Data.Matrix.PEquiv
import Mathlib.Analysis.SpecialFunctions.Exponential
import Mathlib.Analysis.Calculus.Deriv.Comp
import Mathlib.Analysis.Calculus.Deriv.Linear

/-!
# C40, C41: unitary and open evolution
-/
namespace Verif.Toolbox
open Matrix NormedSpace

variable {n : ℕ}

/-! ## C41 -/

theorem conjTranspose_unitaryOp (H : Op n) (hH : H.IsHermitian) (t : ℝ) : (unitaryOp H t)ᴴ = unitaryOp H (-t) := by
  rw [unitaryOp, unitaryOp, ← exp_conjTranspose]
  congr 1
  rw [conjTranspose_smul, conjTranspose_smul, hH.eq]
  simp

/-- **C41** composition in time (for every matrix `H`). -/
theorem C41_compose (H : Op n) (s t : ℝ) : unitaryOp H s * unitaryOp H t = unitaryOp H (s + t) := by
  rw [unitaryOp, unitaryOp, unitaryOp, ← Matrix.exp_add_of_commute]
  · congr 1; push_cast; rw [add_smul]
  · exact ((Commute.refl _).smul_left _).smul_right _

/-- **C41** zero time is the identity. -/
theorem C41_zero (H : Op n) : unitaryOp H 0 = 1 := by simp [unitaryOp]

open scoped Matrix.Norms.Operator in
/-- **C41** the evolution operator solves the Schrödinger equation `dU/dt = -i H U` (for every matrix `H`). -/
theorem C41_schroedinger (H : Op n) (t : ℝ) :
    HasDerivAt (fun s : ℝ => unitaryOp H s) ((-Complex.I) • (H * unitaryOp H t)) t := by
  have h := hasDerivAt_exp_smul_const' (𝕂 := ℂ) ((-Complex.I) • H) (t : ℂ)
  have h2 := h.scomp t (Complex.ofRealCLM.hasDerivAt (x := t))
  simp only [Complex.ofRealCLM_apply, Complex.ofReal_one, one_smul] at h2
  rw [Matrix.smul_mul] at h2
  exact h2

/-- **C41** the evolution operator of a Hermitian Hamiltonian is unitary. -/
theorem C41_unitary (H : Op n) (hH : H.IsHermitian) (t : ℝ) :
    hc (unitaryOp H t) * unitaryOp H t = 1 ∧ unitaryOp H t * hc (unitaryOp H t) = 1 := by
  rw [hc_eq, conjTranspose_unitaryOp H hH, C41_compose, C41_compose]
  simp [C41_zero]

/-- **C41** trajectories keep the norm: `<psi_k|psi_k> = <psi_0|psi_0>` after any number of steps with any Hermitian
Hamiltonians and times. -/
theorem C41_norm_kept (steps : List (Op n × ℝ)) (hs : ∀ p ∈ steps, p.1.IsHermitian) (psi : Ket n) :
    let out : Ket n := steps.foldl (fun (s : Ket n) (p : Op n × ℝ) => unitaryOp p.1 p.2 * s) psi
    hc out * out = hc psi * psi := by
  induction steps generalizing psi with
  | nil => rfl
  | cons p steps ih =>
    have h := ih (fun q hq => hs q (List.mem_cons_of_mem _ hq)) (unitaryOp p.1 p.2 * psi)
    simp only [List.foldl_cons]
    refine h.trans ?_
    have hu := (C41_unitary p.1 (hs p (by simp)) p.2).1
    simp only [hc_eq, conjTranspose_mul] at hu ⊢
    rw [Matrix.mul_assoc, ← Matrix.mul_assoc _ _ psi, hu, Matrix.one_mul]

/-- **C41** any product of protocol steps is unitary. -/
theorem C41_protocol_unitary (steps : List (Op n)) (hs : ∀ U ∈ steps, hc U * U = 1) :
    hc (steps.foldl (fun acc U => U * acc) 1) * steps.foldl (fun acc U => U * acc) 1 = 1 := by
  suffices h : ∀ (acc : Op n), hc acc * acc = 1 →
      hc (steps.foldl (fun acc U => U * acc) acc) * steps.foldl (fun acc U => U * acc) acc = 1 from
    h 1 (by simp [hc_eq])
  induction steps with
  | nil => intro acc h; exact h
  | cons U steps ih =>
    intro acc h
    refine ih (fun V hV => hs V (List.mem_cons_of_mem _ hV)) _ ?_
    have hu := hs U (by simp)
    simp only [hc_eq, conjTranspose_mul] at hu h ⊢
    rw [Matrix.mul_assoc, ← Matrix.mul_assoc _ _ acc, hu, Matrix.one_mul, h]

example : hc (unitaryOp !![1, Complex.I; -Complex.I, 2] 3) * unitaryOp !![1, Complex.I; -Complex.I, 2] 3 = 1 :=
  (C41_unitary _ (by ext i j; fin_cases i <;> fin_cases j <;> simp [conjTranspose_apply]) _).1

/-! ## C40 -/

/-- Specification: the superoperator maps every matrix to a traceless one. -/
def TraceKilling (L : Op (n * n)) : Prop := ∀ X : Op n, (vec2Mat (L * mat2Vec X)).trace = 0

/-- Specification: the superoperator commutes with Hermitian conjugation (so it maps Hermitian to Hermitian). -/
def HermPreserving (L : Op (n * n)) : Prop := ∀ X : Op n, vec2Mat (L * mat2Vec (Xᴴ)) = (vec2Mat (L * mat2Vec X))ᴴ

/-- A collapse operator given as an operator, or as a superoperator with the stated property. -/
def CollapseOk (P : Op (n * n) → Prop) : Collapse n → Prop
  | .op _ => True
  | .super L => P L

theorem traceKilling_act (L : Op (n * n)) : TraceKilling L ↔ ∀ X, (act L X).trace = 0 := Iff.rfl
theorem hermPreserving_act (L : Op (n * n)) : HermPreserving L ↔ ∀ X, act L Xᴴ = (act L X)ᴴ := Iff.rfl

theorem traceKilling_add {L M : Op (n * n)} (hL : TraceKilling L) (hM : TraceKilling M) : TraceKilling (L + M) := by
  rw [traceKilling_act] at *
  intro X; rw [act_add, trace_add, hL, hM, add_zero]

theorem traceKilling_smul {L : Op (n * n)} (c : ℂ) (hL : TraceKilling L) : TraceKilling (c • L) := by
  rw [traceKilling_act] at *
  intro X; rw [act_smul, trace_smul, hL, smul_zero]

theorem hermPreserving_add {L M : Op (n * n)} (hL : HermPreserving L) (hM : HermPreserving M) :
    HermPreserving (L + M) := by
  rw [hermPreserving_act] at *
  intro X; rw [act_add, act_add, conjTranspose_add, hL, hM]

theorem hermPreserving_smul {L : Op (n * n)} (c : ℝ) (hL : HermPreserving L) : HermPreserving ((c : ℂ) • L) := by
  rw [hermPreserving_act] at *
  intro X; rw [act_smul, act_smul, conjTranspose_smul, hL]; simp

theorem traceKilling_dissipator (A : Op n) (d : Bool) : TraceKilling (dissipator A none d) := by
  rw [traceKilling_act]
  intro X
  rw [act_dissipator, trace_smul, trace_sub, trace_smul, trace_add]
  have h1 : (A * X * Aᴴ).trace = (Aᴴ * A * X).trace := by
    rw [Matrix.trace_mul_comm, ← Matrix.mul_assoc]
  have h2 : (X * (Aᴴ * A)).trace = (Aᴴ * A * X).trace := by rw [Matrix.trace_mul_comm]
  rw [h1, h2]
  simp only [smul_eq_mul]; ring

theorem hermPreserving_dissipator (A : Op n) (d : Bool) : HermPreserving (dissipator A none d) := by
  rw [hermPreserving_act]
  intro X
  rw [act_dissipator, act_dissipator]
  simp only [conjTranspose_smul, conjTranspose_sub, conjTranspose_add, conjTranspose_mul, conjTranspose_conjTranspose,
    Matrix.mul_assoc]
  rw [add_comm (Xᴴ * _)]
  cases d <;> simp

theorem traceKilling_ham (H : Option (Op n)) : TraceKilling (hamPart H) := by
  rw [traceKilling_act]
  intro X
  cases H with
  | none => rw [hamPart, act_zero, trace_zero]
  | some H => rw [act_hamPart, trace_smul, trace_sub, Matrix.trace_mul_comm, sub_self, smul_zero]

theorem hermPreserving_ham (H : Option (Op n)) (hH : ∀ h, H = some h → h.IsHermitian) : HermPreserving (hamPart H) := by
  rw [hermPreserving_act]
  intro X
  cases H with
  | none => rw [hamPart, act_zero, act_zero, conjTranspose_zero]
  | some H =>
    rw [act_hamPart, act_hamPart, conjTranspose_smul, conjTranspose_sub, conjTranspose_mul, conjTranspose_mul,
      (hH H rfl).eq]
    simp only [RCLike.star_def, map_neg, Complex.conj_I, neg_neg]
    module

theorem addCollapse_ind (P : Op (n * n) → Prop) (hadd : ∀ L M, P L → P M → P (L + M))
    (double : Bool) (rates : Option (List ℝ)) (hsm : ∀ r, (∃ rs, rates = some rs ∧ r ∈ rs) → ∀ L, P L → P ((r : ℂ) • L))
    (hdis : ∀ A, P (dissipator A none double)) : ∀ (cs : List (Collapse n)) (idx : ℕ) (L R : Op (n * n)),
    (∀ c ∈ cs, CollapseOk P c) → P L → addCollapse double rates idx cs L = some R → P R := by
  intro cs
  induction cs with
  | nil => intro idx L R _ hL h; simp only [addCollapse, Option.some.injEq] at h; exact h ▸ hL
  | cons c cs ih =>
    intro idx L R hc hL h
    have hcp : P (collapsePart double c) := by
      have := hc c (by simp)
      cases c with
      | op A => exact hdis A
      | super M => exact this
    have hc' : ∀ c ∈ cs, CollapseOk P c := fun d hd => hc d (List.mem_cons_of_mem _ hd)
    unfold addCollapse at h
    split at h
    · exact ih _ _ _ hc' (hadd _ _ hL hcp) h
    · split at h
      · split at h
        · rename_i rs _ _ r hr
          exact ih _ _ _ hc' (hadd _ _ hL (hsm _ ⟨_, rfl, List.mem_of_getElem? hr⟩ _ hcp)) h
        · cases h
      · exact ih _ _ _ hc' hL h

theorem Liouvillian_ind (P : Op (n * n) → Prop) (hadd : ∀ L M, P L → P M → P (L + M))
    (double : Bool) (hdis : ∀ A, P (dissipator A none double))
    (H : Option (Op n)) (hH : P (hamPart H)) (cs : Option (List (Collapse n))) (rates : Option (List ℝ))
    (hsm : ∀ r, (∃ rs, rates = some rs ∧ r ∈ rs) → ∀ L, P L → P ((r : ℂ) • L))
    (hc : ∀ l, cs = some l → ∀ c ∈ l, CollapseOk P c) (R : Op (n * n)) (h : Liouvillian H cs rates double = some R) :
    P R := by
  unfold Liouvillian at h
  split at h
  · cases h
  · cases h
  · simp only [Option.some.injEq] at h; exact h ▸ hH
  · exact addCollapse_ind P hadd double rates hsm hdis _ 0 _ _ (hc _ rfl) hH h

/-- **C40**: for all Hamiltonians, collapse operators and real rates the Liouvillian, whenever the call succeeds, maps every
matrix to a traceless matrix. -/
theorem C40_traceless (H : Option (Op n)) (cs : Option (List (Collapse n))) (rates : Option (List ℝ)) (double : Bool)
    (hc : ∀ l, cs = some l → ∀ c ∈ l, CollapseOk TraceKilling c) (L : Op (n * n))
    (h : Liouvillian H cs rates double = some L) : TraceKilling L :=
  Liouvillian_ind TraceKilling (fun _ _ => traceKilling_add) double
    (fun A => traceKilling_dissipator A double) H (traceKilling_ham H) cs rates (fun _ _ _ => traceKilling_smul _) hc L h

/-- **C40**: and it maps Hermitian matrices to Hermitian matrices. -/
theorem C40_hermitian (H : Option (Op n)) (hH : ∀ h, H = some h → h.IsHermitian) (cs : Option (List (Collapse n)))
    (rates : Option (List ℝ)) (double : Bool)
    (hc : ∀ l, cs = some l → ∀ c ∈ l, CollapseOk HermPreserving c) (L : Op (n * n))
    (h : Liouvillian H cs rates double = some L) : HermPreserving L :=
  Liouvillian_ind HermPreserving (fun _ _ => hermPreserving_add) double
    (fun A => hermPreserving_dissipator A double) H (hermPreserving_ham H hH) cs rates
    (fun _ _ _ => hermPreserving_smul _) hc L h

/-- the row vector `v` with `v * mat2Vec X = trace X` -/
def traceRow (n : ℕ) : Matrix (Fin 1) (Fin (n * n)) ℂ := (mat2Vec (1 : Op n))ᵀ

theorem traceRow_mul (X : Op n) : traceRow n * mat2Vec X = fun _ _ => X.trace := by
  funext a b
  simp only [traceRow, Matrix.mul_apply, transpose_apply, mat2Vec, of_apply, Matrix.trace, diag]
  rw [← finProdFinEquiv.sum_comp, Fintype.sum_prod_type]
  simp only [Equiv.symm_apply_apply]
  simp [Matrix.one_apply]

theorem traceRow_kill (L : Op (n * n)) (h : TraceKilling L) : traceRow n * L = 0 := by
  have : ∀ v : Ket (n * n), traceRow n * L * v = 0 := by
    intro v
    rw [Matrix.mul_assoc, ← C39_mat2Vec_vec2Mat v, ← C39_mat2Vec_vec2Mat (L * _), traceRow_mul, h]
    rfl
  ext i j
  have h1 := congrFun (congrFun (this (Matrix.of fun k _ => if k = j then 1 else 0)) i) 0
  simpa [Matrix.mul_apply] using h1

/-- **C40**: evolution by the exponential of a trace-killing superoperator keeps the trace, for every time. -/
theorem C40_exp_trace (L : Op (n * n)) (h : TraceKilling L) (t : ℝ) (X : Op n) :
    (vec2Mat (exp ((t : ℂ) • L) * mat2Vec X)).trace = X.trace := by
  have hi := mul_exp_of_intertwine (traceRow n) ((t : ℂ) • L) (0 : Matrix (Fin 1) (Fin 1) ℂ)
    (by rw [Matrix.mul_smul, traceRow_kill L h]; simp)
  rw [exp_zero, Matrix.one_mul] at hi
  have h2 : traceRow n * (exp ((t : ℂ) • L) * mat2Vec X) = traceRow n * mat2Vec X := by
    rw [← Matrix.mul_assoc, hi]
  rw [← C39_mat2Vec_vec2Mat (exp ((t : ℂ) • L) * mat2Vec X), traceRow_mul, traceRow_mul] at h2
  exact congrFun (congrFun h2 0) 0

/-- entrywise conjugate -/
def conjM {m k : Type*} (M : Matrix m k ℂ) : Matrix m k ℂ := Mᴴᵀ

theorem conjM_mul {m k l : Type*} [Fintype k] (A : Matrix m k ℂ) (B : Matrix k l ℂ) : conjM (A * B) = conjM A * conjM B := by
  simp [conjM, conjTranspose_mul, transpose_mul]

theorem conjM_exp {m : Type*} [Fintype m] [DecidableEq m] (A : Matrix m m ℂ) : conjM (exp A) = exp (conjM A) := by
  rw [conjM, conjM, ← exp_conjTranspose, ← exp_transpose]

/-- the swap matrix: `swapM * conj(vec X) = vec(X^dag)` -/
def swapM (n : ℕ) : Op (n * n) :=
  Matrix.of fun a b => if (finProdFinEquiv.symm a).1 = (finProdFinEquiv.symm b).2 ∧
    (finProdFinEquiv.symm a).2 = (finProdFinEquiv.symm b).1 then 1 else 0

theorem swapM_mul (X : Op n) : swapM n * conjM (mat2Vec X) = mat2Vec Xᴴ := by
  ext a b
  simp only [swapM, Matrix.mul_apply, of_apply, conjM, transpose_apply, conjTranspose_apply, mat2Vec]
  rw [← finProdFinEquiv.sum_comp, Fintype.sum_prod_type]
  simp only [Equiv.symm_apply_apply]
  obtain ⟨⟨i, j⟩, rfl⟩ := finProdFinEquiv.surjective a
  simp only [Equiv.symm_apply_apply]
  rw [Finset.sum_eq_single j, Finset.sum_eq_single i]
  · simp
  · intro k _ hk; simp [Ne.symm hk]
  · simp
  · intro k _ hk
    apply Finset.sum_eq_zero
    intro l _
    simp [Ne.symm hk]
  · simp

theorem conjM_conjM {m k : Type*} (M : Matrix m k ℂ) : conjM (conjM M) = M := by ext i j; simp [conjM]

theorem hermPreserving_iff (L : Op (n * n)) : HermPreserving L ↔ swapM n * conjM L = L * swapM n := by
  have key : ∀ X, (L * swapM n) * conjM (mat2Vec X) = L * mat2Vec Xᴴ := by
    intro X; rw [Matrix.mul_assoc, swapM_mul]
  have key2 : ∀ X, (swapM n * conjM L) * conjM (mat2Vec X) = mat2Vec (act L X)ᴴ := by
    intro X
    rw [Matrix.mul_assoc, ← conjM_mul, ← swapM_mul, mat2Vec_act]
  constructor
  · intro h
    rw [hermPreserving_act] at h
    ext i j
    have h1 : (swapM n * conjM L) * (Matrix.of fun k (_ : Fin 1) => if k = j then (1 : ℂ) else 0)
        = (L * swapM n) * (Matrix.of fun k (_ : Fin 1) => if k = j then (1 : ℂ) else 0) := by
      rw [← conjM_conjM (Matrix.of fun k (_ : Fin 1) => if k = j then (1 : ℂ) else 0),
        ← C39_mat2Vec_vec2Mat (conjM (Matrix.of fun k (_ : Fin 1) => if k = j then (1 : ℂ) else 0)), key, key2, ← h,
        mat2Vec_act]
    have h2 := congrFun (congrFun h1 i) 0
    simpa [Matrix.mul_apply] using h2
  · intro h X
    have h1 := key2 X
    rw [h, key, ← mat2Vec_act] at h1
    have h2 := congrArg vec2Mat h1
    rwa [C39_vec2Mat_mat2Vec, C39_vec2Mat_mat2Vec] at h2

/-- **C40**: evolution by the exponential of a Hermiticity-preserving superoperator preserves Hermiticity, for every
(real) time. -/
theorem C40_exp_hermitian (L : Op (n * n)) (h : HermPreserving L) (t : ℝ) (X : Op n) (hX : X.IsHermitian) :
    (vec2Mat (exp ((t : ℂ) • L) * mat2Vec X)).IsHermitian := by
  have h1 : HermPreserving (exp ((t : ℂ) • L)) := by
    rw [hermPreserving_iff, conjM_exp]
    exact mul_exp_of_intertwine _ _ _ ((hermPreserving_iff _).mp (hermPreserving_smul t h))
  have := h1 X
  rw [hX.eq] at this
  exact this.symm

theorem continuous_mat2Vec : Continuous (mat2Vec : Op n → Ket (n * n)) :=
  continuous_pi fun _ => continuous_pi fun _ => continuous_apply_apply _ _

theorem exp_preSO_mul (A X : Op n) : exp (preSO A) * mat2Vec X = mat2Vec (exp A * X) := by
  have hp : ∀ (k : ℕ), preSO A ^ k * mat2Vec X = mat2Vec (A ^ k * X) := by
    intro k
    induction k with
    | zero => simp
    | succ k ih => rw [pow_succ', Matrix.mul_assoc, ih, C39_preSO, pow_succ', Matrix.mul_assoc]
  have h1 : HasSum (fun k : ℕ => (((k.factorial : ℂ)⁻¹) • preSO A ^ k) * mat2Vec X) (exp (preSO A) * mat2Vec X) :=
    (hasSum_exp (preSO A)).map (AddMonoidHom.mk' (fun Y => Y * mat2Vec X) (fun a b => Matrix.add_mul a b _))
      (continuous_id.matrix_mul continuous_const)
  have h2 : HasSum (fun k : ℕ => mat2Vec ((((k.factorial : ℂ)⁻¹) • A ^ k) * X)) (mat2Vec (exp A * X)) :=
    (hasSum_exp A).map (AddMonoidHom.mk' (fun Y => mat2Vec (Y * X)) (fun a b => by rw [Matrix.add_mul, mat2Vec_add]))
      (continuous_mat2Vec.comp (continuous_id.matrix_mul continuous_const))
  refine h1.unique ?_
  convert h2 using 1
  funext k
  rw [Matrix.smul_mul, Matrix.smul_mul, hp, mat2Vec_smul]

theorem exp_postSO_mul (A X : Op n) : exp (postSO A) * mat2Vec X = mat2Vec (X * exp A) := by
  have hp : ∀ (k : ℕ) (X : Op n), postSO A ^ k * mat2Vec X = mat2Vec (X * A ^ k) := by
    intro k
    induction k with
    | zero => simp
    | succ k ih => intro X; rw [pow_succ, Matrix.mul_assoc, C39_postSO, ih, pow_succ', Matrix.mul_assoc]
  have h1 : HasSum (fun k : ℕ => (((k.factorial : ℂ)⁻¹) • postSO A ^ k) * mat2Vec X) (exp (postSO A) * mat2Vec X) :=
    (hasSum_exp (postSO A)).map (AddMonoidHom.mk' (fun Y => Y * mat2Vec X) (fun a b => Matrix.add_mul a b _))
      (continuous_id.matrix_mul continuous_const)
  have h2 : HasSum (fun k : ℕ => mat2Vec (X * (((k.factorial : ℂ)⁻¹) • A ^ k))) (mat2Vec (X * exp A)) :=
    (hasSum_exp A).map (AddMonoidHom.mk' (fun Y => mat2Vec (X * Y)) (fun a b => by rw [Matrix.mul_add, mat2Vec_add]))
      (continuous_mat2Vec.comp (continuous_const.matrix_mul continuous_id))
  refine h1.unique ?_
  convert h2 using 1
  funext k
  rw [Matrix.smul_mul, Matrix.mul_smul, hp, mat2Vec_smul]

/-- **C40**: without dissipators the superoperator is conjugation with the unitary of the closed system. -/
theorem C40_no_dissipation (H : Op n) (hH : H.IsHermitian) (t : ℝ) (rates : Option (List ℝ)) (X : Op n) :
    ∃ W : Op (n * n), LiouvillianExp (some H) t (some []) rates = some (.super W)
      ∧ vec2Mat (W * mat2Vec X) = unitaryOp H t * X * hc (unitaryOp H t) := by
  refine ⟨exp ((t : ℂ) • hamPart (some H)), by simp [LiouvillianExp, Liouvillian, addCollapse], ?_⟩
  have hpres : ∀ (c : ℂ) (A : Op n), c • preSO A = preSO (c • A) := fun c A =>
    act_injective fun X => by rw [act_smul, act_pre, act_pre, Matrix.smul_mul]
  have hposts : ∀ (c : ℂ) (A : Op n), c • postSO A = postSO (c • A) := fun c A =>
    act_injective fun X => by rw [act_smul, act_post, act_post, Matrix.mul_smul]
  have hsplit : (t : ℂ) • hamPart (some H) = preSO ((t : ℂ) • ((-Complex.I) • H))
      + postSO (((-t : ℝ) : ℂ) • ((-Complex.I) • H)) := by
    rw [← hpres, ← hpres, ← hposts, ← hposts, hamPart, zero_add, smul_sub, smul_sub]
    push_cast
    module
  have hcomm : Commute (preSO ((t : ℂ) • ((-Complex.I) • H))) (postSO (((-t : ℝ) : ℂ) • ((-Complex.I) • H))) := by
    refine act_injective fun X => ?_
    simp only [act, Matrix.mul_assoc, C39_preSO, C39_postSO]
  rw [hsplit, Matrix.exp_add_of_commute _ _ hcomm, Matrix.mul_assoc, exp_postSO_mul, exp_preSO_mul, C39_vec2Mat_mat2Vec, hc_eq,
    conjTranspose_unitaryOp H hH]
  simp only [unitaryOp, Matrix.mul_assoc]

theorem evolveOpen_get (G : Op (n * n)) : ∀ (k : ℕ) (v : Ket (n * n)) (j : ℕ), j < k →
    (evolveOpen G k v)[j]? = some (vec2Mat (G ^ (j + 1) * v)) := by
  intro k
  induction k with
  | zero => intro v j hj; omega
  | succ k ih =>
    intro v j hj
    cases j with
    | zero => simp [evolveOpen]
    | succ j =>
      rw [evolveOpen, List.getElem?_cons_succ, ih _ j (by omega), ← Matrix.mul_assoc, ← pow_succ]

theorem evolveOpen_length (G : Op (n * n)) : ∀ (k : ℕ) (v : Ket (n * n)), (evolveOpen G k v).length = k := by
  intro k
  induction k with
  | zero => intro v; rfl
  | succ k ih => intro v; simp [evolveOpen, ih]

theorem exp_pow (L : Op (n * n)) (t : ℝ) (k : ℕ) : exp ((t : ℂ) • L) ^ k = exp (((k * t : ℝ) : ℂ) • L) := by
  rw [← Matrix.exp_nsmul]
  congr 1
  push_cast
  module

/-- **C40**: `evolveOpen` returns one state per step; state `j` is the exact evolution of the initial state over the time
`(j + 1) dt`, and all of them have the trace of the initial state and are Hermitian if it is. -/
theorem C40_trajectory (L : Op (n * n)) (hT : TraceKilling L) (hH : HermPreserving L) (dt : ℝ) (k : ℕ) (X : Op n) :
    (evolveOpen (exp ((dt : ℂ) • L)) k (mat2Vec X)).length = k ∧
      ∀ j, j < k → ∃ Y, (evolveOpen (exp ((dt : ℂ) • L)) k (mat2Vec X))[j]? = some Y ∧
        Y = vec2Mat (exp ((((j + 1 : ℕ) * dt : ℝ) : ℂ) • L) * mat2Vec X) ∧ Y.trace = X.trace ∧
          (X.IsHermitian → Y.IsHermitian) := by
  refine ⟨evolveOpen_length _ _ _, fun j hj => ⟨_, evolveOpen_get _ _ _ _ hj, ?_, ?_, fun hX => ?_⟩⟩
  · rw [exp_pow]
  · rw [exp_pow, C40_exp_trace L hT]
  · rw [exp_pow]; exact C40_exp_hermitian L hH _ X hX

/-- A concrete non-trivial case: decaying qubit with Hermitian Hamiltonian and rate 2. -/
example (t : ℝ) : ∃ L, Liouvillian (some !![1, 0; 0, -1]) (some [.op !![0, 1; 0, 0]]) (some [2]) = some L
    ∧ (vec2Mat (exp ((t : ℂ) • L) * mat2Vec (!![1/2, 0; 0, 1/2] : Op 2))).trace = 1 := by
  refine ⟨_, rfl, ?_⟩
  rw [C40_exp_trace _ (C40_traceless (some !![1, 0; 0, -1]) (some [.op !![0, 1; 0, 0]]) (some [2]) false
    (by rintro l ⟨⟩ c hc; simp at hc; subst hc; trivial) _ rfl)]
  simp [Matrix.trace_fin_two]; norm_num

end Verif.Toolbox
