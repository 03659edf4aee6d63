import Verif.Whole.Open

/-!
# C77: the density matrices in the results of a sweep over the parameters of an open composite system

The simulation of `Verif.Whole.Open` with one `freeEvolution` whose Hamiltonian is that of the composite system of `Verif.Tree.Ham`.
-/
namespace Verif.Whole
open Verif.Sweep Verif.Cache Verif.Tree Verif.Toolbox Verif.Open Matrix NormedSpace
open scoped ComplexOrder

variable {P : Type} [DecidableEq P]

/-- `matrixExponentiation(collapseOps, decayRates)` (`QPro.py:400-407`). -/
noncomputable def expOf {d : ℕ} (H : Op d) (t : ℝ) (ds : List (Op d × ℝ)) : Op (d * d) :=
  match LiouvillianExp (some H) t (some ((ds.map Prod.fst).map Collapse.op)) (some (ds.map Prod.snd)) with
  | some (.super L) => L
  | _ => 0

/-- One `freeEvolution` with dissipators `Ds` of a composite system. -/
noncomputable def lindRun (root : Sys) (T : (P → ℝ) → List Nat → List Term) (Ds : List (Op root.dimension × ℝ)) (dt : P)
    (psi : (P → ℝ) → QState root.dimension) (stepCount : (P → ℝ) → Nat) (sweeps : List (SweepObj ℝ)) (targets : List (List P)) :
    OCfg P ℝ (Op (root.dimension * root.dimension)) (Op root.dimension × ℝ) (Op root.dimension) where
  o := { base := { alg := { one := 1, mul := fun a b => a * b, conj := hc, mul_one := fun a => Matrix.mul_one a }, leaf := fun _ => true,
                   U := fun _ _ _ => 0, marks := fun _ _ => true, upds := fun _ => [], fixed := fun _ => false },
         own := fun _ => Ds, U := fun _ σ ratio ds => expOf (hamOf root T σ) (σ dt * ratio) ds }
  lim := 100
  sweeps := sweeps
  targets := targets
  protos := [0]
  act := fun u s => vec2Mat (u * mat2Vec s)
  init := fun _ σ => densityMatrixOne (psi σ)
  stepCount := stepCount

theorem lindRun_nice (root : Sys) (T : (P → ℝ) → List Nat → List Term) (Ds : List (Op root.dimension × ℝ)) (dt : P)
    (psi : (P → ℝ) → QState root.dimension) (stepCount : (P → ℝ) → Nat) (sweeps : List (SweepObj ℝ)) (targets : List (List P))
    (h : targets.length = sweeps.length) :
    ONice (lindRun root T Ds dt psi stepCount sweeps targets) (fun _ => Ds ++ Ds) (fun _ => []) (fun _ => 0) where
  tame := ⟨fun _ => rfl, fun _ _ => rfl, fun _ => ⟨[], rfl, List.nodup_nil⟩, by simp⟩
  covers := ⟨fun i _ σ τ r ds e => by rw [show σ = τ from funext fun p => e p rfl], fun i _ r hr => by simp at hr, fun i _ r hr => by simp at hr⟩
  one := fun i hl => by simp [lindRun] at hl
  top := fun i _ => rfl
  deep := by simp [lindRun]
  nodup := by simp [lindRun]
  targets := h

/-- The dissipators with twice the given rates. -/
def doubled {d : ℕ} (Ds : List (Op d × ℝ)) : List (Op d × ℝ) := Ds.map fun x => (x.1, 2 * x.2)

theorem expOf_doubled {d : ℕ} (H : Op d) (t : ℝ) (Ds : List (Op d × ℝ)) :
    expOf H t (Ds ++ Ds) = exp ((t : ℂ) • generator H (doubled Ds)) := by
  unfold expOf
  rw [LiouvillianExp_generator]
  have := total_double Ds
  unfold Open.total at this
  unfold generator doubled
  rw [this]

theorem trajectory_exp {d : ℕ} (L : Op (d * d)) (t : ℝ) (rho : Op d) (N : Nat) (x : List (Op d))
    (h : Trajectory (fun (u : Op (d * d)) (s : Op d) => vec2Mat (u * mat2Vec s)) (exp ((t : ℂ) • L)) rho N x) (k : Nat) (hk : k ≤ N) :
    x[k]? = some (vec2Mat (exp (((k * t : ℝ) : ℂ) • L) * mat2Vec rho)) := by
  rw [← exp_pow]
  induction k with
  | zero => rw [h.2.1]; simp [C39_vec2Mat_mat2Vec]
  | succ k ih =>
    rw [h.2.2 k (by omega) _ (ih (by omega))]
    dsimp only
    rw [C39_mat2Vec_vec2Mat, ← Matrix.mul_assoc, ← pow_succ']

/-- C77: the density matrices found at an index solve the Lindblad equation with the Hamiltonian of the parameters of the point, at the
multiples of the time step, with twice the rates of the dissipators (C53).  They keep the trace of the initial one, and they are
positive semidefinite if the rates and the time step are not negative. -/
theorem C77_lindblad {root : Sys} (hs : Shape root) (hp : Positions root) (T : (P → ℝ) → List Nat → List Term)
    (hT : ∀ σ, ∀ c ∈ contributions (T σ) (paths [] root), TermFits root c.1 c.2)
    (ha : ∀ σ, AdjClosed root (contributions (T σ) (paths [] root))) (Ds : List (Op root.dimension × ℝ)) (dt : P)
    (psi : (P → ℝ) → QState root.dimension) (stepCount : (P → ℝ) → Nat) (sweeps : List (SweepObj ℝ)) (targets : List (List P))
    (hlen : targets.length = sweeps.length) (hsw : SweepsOk sweeps) (fd : FloatDiv) (ratio : Nat → ℝ)
    (st : St P ℝ (Op (root.dimension * root.dimension)))
    (hr : OReachable (lindRun root T Ds dt psi stepCount sweeps targets).o (fun _ => Ds ++ Ds) 100 ratio (fun _ => []) st) :
    ∃ r st', runSeqO (lindRun root T Ds dt psi stepCount sweeps targets) fd 0 st = some (r, st') ∧
      ∀ t, ValidIdx (axes sweeps) t → ∃ vals, Delivers sweeps t vals ∧ ∀ σ, σ = overwrite targets vals st.σ →
        ∃ v, ∃ x : List (Op root.dimension), ∃ shown, hamil root (T σ) [] root = some v ∧ nestedGet r t = some shown ∧
          Shown (.list (x.map .atom)) shown ∧ x.length = stepCount σ + 1 ∧
          ∀ k ≤ stepCount σ, ∃ rho, x[k]? = some rho ∧
            rho = vec2Mat (exp (((k * (σ dt * ratio 0) : ℝ) : ℂ) • generator (v.toOp root.dimension) (doubled Ds)) *
              mat2Vec (densityMatrixOne (psi σ))) ∧
            rho.trace = (densityMatrixOne (psi σ)).trace ∧
            ((∀ d ∈ Ds, 0 ≤ d.2) → 0 ≤ σ dt * ratio 0 → rho.PosSemidef) := by
  obtain ⟨r, st', e, -, -, hpt⟩ := C77_run_partial (lindRun_nice root T Ds dt psi stepCount sweeps targets hlen) hsw fd st hr 0
    (by simp [lindRun])
  refine ⟨r, st', e, fun t ht => ?_⟩
  obtain ⟨vals, x, shown, h1, h3, h4, h5⟩ := hpt t ht
  refine ⟨vals, h1, fun σ hσ => ?_⟩
  obtain ⟨v, hv, hh⟩ := C68_hermitian hs hp (T σ) (hT σ) (ha σ)
  have hU : scratchO (lindRun root T Ds dt psi stepCount sweeps targets).o (overwrite targets vals st.σ) ratio (fun _ => []) 1 0
      (Ds ++ Ds) = exp (((σ dt * ratio 0 : ℝ) : ℂ) • generator (v.toOp root.dimension) (doubled Ds)) := by
    rw [← expOf_doubled]
    show expOf (hamOf root T (overwrite targets vals st.σ)) (overwrite targets vals st.σ dt * ratio 0) (Ds ++ Ds) = _
    rw [← hσ, hamOf, hv]
  have h3' : Trajectory (fun (u : Op (root.dimension * root.dimension)) (s : Op root.dimension) => vec2Mat (u * mat2Vec s))
      (exp (((σ dt * ratio 0 : ℝ) : ℂ) • generator (v.toOp root.dimension) (doubled Ds))) (densityMatrixOne (psi σ)) (stepCount σ) x := by
    rw [← hU, hσ]
    exact h3
  have hL := Liouvillian_generator (v.toOp root.dimension) (doubled Ds)
  refine ⟨v, x, shown, hv, h4, h5, h3'.1, fun k hk => ⟨_, trajectory_exp _ _ _ _ _ h3' k hk, rfl, ?_, fun hD ht => ?_⟩⟩
  · refine C40_exp_trace _ (C40_traceless _ _ _ false ?_ _ hL) _ _
    rintro l ⟨⟩ c hc
    obtain ⟨A, _, rfl⟩ := List.mem_map.mp hc
    trivial
  · refine (C55_completely_positive _ ?_ _ _ ?_ false ?_ _ hL _ (by positivity)).positive _ ?_
    · rintro h ⟨⟩; exact hh
    · rintro rs ⟨⟩ q hq
      simp only [doubled, List.map_map, List.mem_map, Function.comp_apply] at hq
      obtain ⟨d, hd, rfl⟩ := hq
      have := hD d hd
      positivity
    · rintro l ⟨⟩ c hc
      obtain ⟨A, _, rfl⟩ := List.mem_map.mp hc
      trivial
    · cases psi σ with
      | ket k => exact Matrix.posSemidef_self_mul_conjTranspose k
      | mat A => exact Matrix.posSemidef_self_mul_conjTranspose A

/-- The two sweeps of the examples: the coupling (`some true`) and the step size (`none`). -/
theorem twoAxes (g1 g2 t1 t2 t3 : ℝ) : SweepsOk [⟨[g1, g2], false⟩, ⟨[t1, t2, t3], true⟩] :=
  ⟨⟨_, _, rfl, rfl⟩, by
    intro j s hj n hn
    match j with
    | 0 => simp at hj; subst hj; simp [axes, axisOf] at hn; simp [← hn]
    | 1 => simp at hj; subst hj; simp [axes, axisOf] at hn; simp [← hn]
    | j + 2 => simp at hj, by simp [axes]⟩

/-- Two qubits with an exchange coupling, one of which decays with rate 3: a sweep over the coupling and one over the step size. -/
noncomputable def decayPair (psi : QState pair.dimension) (g1 g2 t1 t2 t3 : ℝ) :
    OCfg (Option Bool) ℝ (Op (pair.dimension * pair.dimension)) (Op pair.dimension × ℝ) (Op pair.dimension) :=
  lindRun pair (fun σ => exchange (σ (some false)) (σ (some true))) [((kron sigmam (1 : Op 2) : Op (2 * 2)), 3)] none (fun _ => psi)
    (fun _ => 50) [⟨[g1, g2], false⟩, ⟨[t1, t2, t3], true⟩] [[some true], [none]]

/-- A density matrix given as initial state is squared (`densityMatrix` of `modularSweep.py:78` is `x @ hc(x)`): started in the maximally
mixed state of two qubits, all stored states have trace 1/4. -/
theorem C77_mixed_start (fd : FloatDiv) (σ : Option Bool → ℝ) (g1 g2 t1 t2 t3 : ℝ) : ∃ r st',
    runSeqO (decayPair (.mat ((4 : ℂ)⁻¹ • 1)) g1 g2 t1 t2 t3) fd 0 (init σ (fun _ => 1) (fun _ => [])) = some (r, st') ∧
    ∃ x : List (Op pair.dimension), nestedGet r [1, 2] = some (.list (x.map .atom)) ∧ x.length = 51 ∧ ∀ rho ∈ x, rho.trace = 1 / 4 := by
  obtain ⟨r, st', e, h⟩ := C77_lindblad (P := Option Bool) pair_wf.1 pair_wf.2 (fun σ => exchange (σ (some false)) (σ (some true)))
    (fun _ => exchange_fits _ _) (fun _ => exchange_closed _ _) [((kron sigmam (1 : Op 2) : Op (2 * 2)), 3)] none
    (fun _ => .mat ((4 : ℂ)⁻¹ • 1)) (fun _ => 50)
    [⟨[g1, g2], false⟩, ⟨[t1, t2, t3], true⟩] [[some true], [none]] rfl (twoAxes g1 g2 t1 t2 t3) fd (fun _ => 1) _ ⟨σ, [], by simp, rfl⟩
  refine ⟨r, st', e, ?_⟩
  obtain ⟨vals, hd, h⟩ := h [1, 2] (.cons (by simp) (.cons (by simp) .nil))
  obtain ⟨v, x, shown, hv, h4, h5, h6, h7⟩ := h _ rfl
  have h6 : x.length = 51 := h6
  refine ⟨x, ?_, h6, ?_⟩
  · rw [h4, h5.2]
    intro y hy
    have : (x.map PyVal.atom).length = 1 := by rw [PyVal.list.inj hy]; rfl
    rw [List.length_map, h6] at this
    omega
  · intro rho hm
    obtain ⟨k, hk, rfl⟩ := List.mem_iff_getElem.mp hm
    obtain ⟨rho, h8, -, h9, -⟩ := h7 k (by show k ≤ 50; omega)
    rw [List.getElem?_eq_getElem hk, Option.some.injEq] at h8
    rw [h8, h9]
    have h4 : pair.dimension = 4 := rfl
    simp only [densityMatrixOne, hc_eq, Matrix.conjTranspose_smul, Matrix.conjTranspose_one, Matrix.smul_mul, Matrix.mul_smul, Matrix.one_mul,
      Matrix.trace_smul, Matrix.trace_one, Fintype.card_fin, h4]
    norm_num

/-- The same two qubits started with the first one excited: at the second coupling and third step size the populations after `k` steps are
those of the Lindblad equation with the decay rate 6, and the state is a density matrix. -/
example (fd : FloatDiv) (k : Ket pair.dimension) (hk : (k * hc k).trace = 1) (σ : Option Bool → ℝ) (g1 g2 t1 t2 t3 : ℝ) (ht : 0 ≤ t3) :
    ∃ r st', runSeqO (decayPair (.ket k) g1 g2 t1 t2 t3) fd 0 (init σ (fun _ => 1) (fun _ => [])) = some (r, st') ∧
    ∃ v, ∃ x : List (Op pair.dimension), hamil pair (exchange (σ (some false)) g2) [] pair = some v ∧
      nestedGet r [1, 2] = some (.list (x.map .atom)) ∧
      ∃ rho, x[50]? = some rho ∧ rho.trace = 1 ∧ rho.PosSemidef ∧
        rho = vec2Mat (exp (((50 * t3 : ℝ) : ℂ) • generator (v.toOp pair.dimension) [((kron sigmam (1 : Op 2) : Op (2 * 2)), 6)]) *
          mat2Vec (k * hc k)) := by
  obtain ⟨r, st', e, h⟩ := C77_lindblad (P := Option Bool) pair_wf.1 pair_wf.2 (fun σ => exchange (σ (some false)) (σ (some true)))
    (fun _ => exchange_fits _ _) (fun _ => exchange_closed _ _) [((kron sigmam (1 : Op 2) : Op (2 * 2)), 3)] none
    (fun _ => .ket k) (fun _ => 50)
    [⟨[g1, g2], false⟩, ⟨[t1, t2, t3], true⟩] [[some true], [none]] rfl (twoAxes g1 g2 t1 t2 t3) fd (fun _ => 1) _ ⟨σ, [], by simp, rfl⟩
  refine ⟨r, st', e, ?_⟩
  obtain ⟨vals, hd, h⟩ := h [1, 2] (.cons (by simp) (.cons (by simp) .nil))
  obtain rfl : vals = [g2, t3] := by
    obtain ⟨hl, hd⟩ := hd
    obtain ⟨i, hi, e1, -⟩ := hd 0 _ rfl
    obtain ⟨j, hj, e2, -⟩ := hd 1 _ rfl
    simp [axisOf] at hi hj
    subst hi hj
    match vals, hl with
    | [a, b], _ => simp at e1 e2; rw [e1, e2]
  obtain ⟨v, x, shown, hv, h4, h5, h6, h7⟩ := h _ rfl
  have h6 : x.length = 51 := h6
  obtain ⟨rho, h8, h9, h10, h11⟩ := h7 50 (by show 50 ≤ 50; omega)
  refine ⟨v, x, ?_, ?_, rho, h8, ?_, ?_, ?_⟩
  · simpa [overwrite, Cache.init] using hv
  · rw [h4, h5.2]
    intro y hy
    have : (x.map PyVal.atom).length = 1 := by rw [PyVal.list.inj hy]; rfl
    rw [List.length_map, h6] at this
    omega
  · rw [h10]; exact hk
  · refine h11 (by simp) ?_
    simpa [overwrite] using ht
  · rw [h9]
    have e2 : doubled [((kron sigmam (1 : Op 2) : Op (2 * 2)), (3 : ℝ))] = [((kron sigmam (1 : Op 2) : Op (2 * 2)), 6)] := by
      simp [doubled]; norm_num
    have e3 : ((50 : ℕ) * (overwrite [[some true], [none]] [g2, t3] (init σ (fun _ => 1) (fun _ => []) : St (Option Bool) ℝ (Op (4 * 4))).σ none * 1) : ℝ) = 50 * t3 := by
      simp [overwrite]
    exact congrArg₂ (fun (a : ℝ) (D : List (Op pair.dimension × ℝ)) => vec2Mat (exp ((a : ℂ) • generator (v.toOp pair.dimension) D) *
      mat2Vec (k * hc k))) e3 e2

end Verif.Whole
