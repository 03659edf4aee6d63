import Verif.Whole.Props
import Verif.Tree.Hermitian

/-!
# C72: the states in the results of a sweep over the parameters of a composite system

The simulation of `Verif.Whole.Model` with one `freeEvolution` whose Hamiltonian is that of the composite system of `Verif.Tree.Ham`.
-/
namespace Verif.Whole
open Verif.Sweep Verif.Cache Verif.Tree Verif.Toolbox Matrix

variable {P : Type} [DecidableEq P]

/-- The Hamiltonian for given parameters (`superSys.totalHamiltonian`); zero stands for the failing cases, which do not occur below. -/
noncomputable def hamOf (root : Sys) (T : (P → ℝ) → List Nat → List Term) (σ : P → ℝ) : Op root.dimension :=
  match hamil root (T σ) [] root with | none => 0 | some v => v.toOp root.dimension

/-- One `freeEvolution` of a composite system: `_createUnitary` is `matrixExponentiation` (`QPro.py:401-410`) with the time step
`stepSize * ratio / samples` (one sample).  The parameters are the frequencies of the terms and `stepSize`, which all mark the step
(`Verif.Flags`). -/
noncomputable def freeRun (root : Sys) (T : (P → ℝ) → List Nat → List Term) (dt : P) (psi : (P → ℝ) → Ket root.dimension)
    (stepCount : (P → ℝ) → Nat) (sweeps : List (SweepObj ℝ)) (targets : List (List P)) :
    Cfg P ℝ (Op root.dimension) (Ket root.dimension) where
  pr := { alg := { one := 1, mul := fun a b => a * b, conj := hc, mul_one := fun a => Matrix.mul_one a }, leaf := fun _ => true,
          U := fun _ σ ratio => unitaryOp (hamOf root T σ) (σ dt * ratio), marks := fun _ _ => true, upds := fun _ => [],
          fixed := fun _ => false }
  lim := 100
  sweeps := sweeps
  targets := targets
  protos := [0]
  act := fun u s => u * s
  init := fun _ σ => psi σ
  stepCount := stepCount

theorem freeRun_nice (root : Sys) (T : (P → ℝ) → List Nat → List Term) (dt : P) (psi : (P → ℝ) → Ket root.dimension)
    (stepCount : (P → ℝ) → Nat) (sweeps : List (SweepObj ℝ)) (targets : List (List P)) (h : targets.length = sweeps.length) :
    Nice (freeRun root T dt psi stepCount sweeps targets) (fun _ => []) (fun _ => 0) where
  tame := ⟨fun _ => rfl, fun _ _ => rfl, fun _ => ⟨[], rfl, List.nodup_nil⟩, by simp⟩
  covers := ⟨fun i _ σ τ r e => by rw [show σ = τ from funext fun p => e p rfl], fun i _ r hr => by simp at hr, fun i _ r hr => by simp at hr⟩
  deep := by simp [freeRun]
  nodup := by simp [freeRun]
  targets := h

theorem trajectory_unitaryOp {n : ℕ} (H : Op n) (t : ℝ) (psi : Ket n) (N : Nat) (x : List (Ket n))
    (h : Trajectory (fun (u : Op n) (s : Ket n) => u * s) (unitaryOp H t) psi N x) (k : Nat) (hk : k ≤ N) :
    x[k]? = some (unitaryOp H (k * t) * psi) := by
  induction k with
  | zero => rw [h.2.1]; simp [C41_zero]
  | succ k ih =>
    rw [h.2.2 k (by omega) _ (ih (by omega))]
    dsimp only
    rw [← Matrix.mul_assoc, C41_compose]
    congr 3
    push_cast
    ring

/-- The states found at an index are the solution of the Schrödinger equation with the Hamiltonian of the parameters of the point, at the
multiples of the time step: `psi_k = exp(-i k dt H) psi_0`; their norm is that of the initial state. -/
theorem C72_schroedinger {root : Sys} (hs : Shape root) (hp : Positions root) (T : (P → ℝ) → List Nat → List Term)
    (hT : ∀ σ, ∀ c ∈ contributions (T σ) (paths [] root), TermFits root c.1 c.2)
    (ha : ∀ σ, AdjClosed root (contributions (T σ) (paths [] root))) (dt : P) (psi : (P → ℝ) → Ket root.dimension)
    (stepCount : (P → ℝ) → Nat) (sweeps : List (SweepObj ℝ)) (targets : List (List P)) (hlen : targets.length = sweeps.length)
    (hsw : SweepsOk sweeps) (fd : FloatDiv) (ratio : Nat → ℝ) (st : St P ℝ (Op root.dimension))
    (hr : Reachable (freeRun root T dt psi stepCount sweeps targets).pr 100 ratio (fun _ => []) st) :
    ∃ r st', runSeq (freeRun root T dt psi stepCount sweeps targets) fd 0 st = some (r, st') ∧
      ∀ t, ValidIdx (axes sweeps) t → ∃ vals, Delivers sweeps t vals ∧ ∀ σ, σ = overwrite targets vals st.σ →
        ∃ v, ∃ x : List (Ket root.dimension), ∃ shown, hamil root (T σ) [] root = some v ∧ nestedGet r t = some shown ∧ Shown (.list (x.map .atom)) shown ∧
          x.length = stepCount σ + 1 ∧
          ∀ k ≤ stepCount σ, ∃ phi, x[k]? = some phi ∧ phi = unitaryOp (v.toOp root.dimension) (k * (σ dt * ratio 0)) * psi σ ∧
            hc phi * phi = hc (psi σ) * psi σ := by
  obtain ⟨r, st', e, -, -, -, hpt⟩ := C72_run_partial (freeRun_nice root T dt psi stepCount sweeps targets hlen) hsw fd st hr 0
    (by simp [freeRun])
  refine ⟨r, st', e, fun t ht => ?_⟩
  obtain ⟨vals, val, x, shown, h1, h2, h3, h4, h5⟩ := hpt t ht
  refine ⟨vals, h1, fun σ hσ => ?_⟩
  obtain ⟨v, hv, hh⟩ := C68_hermitian hs hp (T σ) (hT σ) (ha σ)
  have hval : val 0 = unitaryOp (v.toOp root.dimension) (σ dt * ratio 0) := by
    rw [h2.leaf 0 rfl]
    show unitaryOp (hamOf root T (overwrite targets vals st.σ)) (overwrite targets vals st.σ dt * ratio 0) = _
    rw [← hσ, hamOf, hv]
  have h3' : Trajectory (fun (u : Op root.dimension) (s : Ket root.dimension) => u * s) (unitaryOp (v.toOp root.dimension) (σ dt * ratio 0))
      (psi σ) (stepCount σ) x := by
    rw [← hval, hσ]
    exact h3
  refine ⟨v, x, shown, hv, h4, h5, h3'.1, fun k hk => ⟨_, trajectory_unitaryOp _ _ _ _ _ h3' k hk, rfl, ?_⟩⟩
  have hu := (C41_unitary _ hh (k * (σ dt * ratio 0))).1
  simp only [hc_eq, conjTranspose_mul] at hu ⊢
  rw [Matrix.mul_assoc, ← Matrix.mul_assoc _ _ (psi σ), hu, Matrix.one_mul]

/-- Two qubits with an exchange coupling: a sweep over the coupling (`some true`) and one over the step size (`none`). -/
example (fd : FloatDiv) (psi : Ket 4) (σ : Option Bool → ℝ) (g1 g2 t1 t2 t3 : ℝ) : ∃ r st',
    runSeq (freeRun pair (fun σ => exchange (σ (some false)) (σ (some true))) none (fun _ => psi) (fun _ => 50)
      [⟨[g1, g2], false⟩, ⟨[t1, t2, t3], true⟩] [[some true], [none]]) fd 0 (init σ (fun _ => 1) (fun _ => [])) = some (r, st') ∧
    ∃ v, ∃ x : List (Ket 4), hamil pair (exchange (σ (some false)) g2) [] pair = some v ∧ nestedGet r [1, 2] = some (.list (x.map .atom)) ∧
      x[50]? = some (unitaryOp (v.toOp 4) (50 * t3) * psi) := by
  obtain ⟨r, st', e, h⟩ := C72_schroedinger (P := Option Bool) pair_wf.1 pair_wf.2 (fun σ => exchange (σ (some false)) (σ (some true)))
    (fun _ => exchange_fits _ _) (fun _ => exchange_closed _ _) none (fun _ => psi) (fun _ => 50)
    [⟨[g1, g2], false⟩, ⟨[t1, t2, t3], true⟩] [[some true], [none]] rfl
    ⟨⟨_, _, rfl, rfl⟩, by
      intro j s hj n hn
      match j with
      | 0 => simp at hj; subst hj; simp [axes, axisOf] at hn; simp [← hn]
      | 1 => simp at hj; subst hj; simp [axes, axisOf] at hn; simp [← hn]
      | j + 2 => simp at hj, by simp [axes]⟩ fd (fun _ => 1) _ ⟨σ, [], by simp, rfl⟩
  refine ⟨r, st', e, ?_⟩
  obtain ⟨vals, hd, h⟩ := h [1, 2] (.cons (by simp) (.cons (by simp) .nil))
  obtain rfl : vals = [g2, t3] := by
    obtain ⟨hl, hd⟩ := hd
    obtain ⟨i, hi, e1, -⟩ := hd 0 _ rfl
    obtain ⟨j, hj, e2, -⟩ := hd 1 _ rfl
    simp [axisOf] at hi hj
    subst hi hj
    match vals, hl with
    | [a, b], _ => simp at e1 e2; rw [e1, e2]
  obtain ⟨v, x, shown, hv, h4, h5, h6, h7⟩ := h _ rfl
  obtain ⟨phi, h8, rfl, -⟩ := h7 50 (by norm_num)
  refine ⟨v, x, ?_, ?_, ?_⟩
  · simpa [overwrite, Cache.init] using hv
  · rw [h4, h5.2]
    intro y hy
    have : (x.map PyVal.atom).length = 1 := by rw [PyVal.list.inj hy]; rfl
    rw [List.length_map, h6] at this
    omega
  · simp [overwrite] at h8
    exact h8

end Verif.Whole
