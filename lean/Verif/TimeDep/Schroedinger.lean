import Verif.TimeDep.Clock
import Verif.Whole.Schroedinger

/-!
# C73: a composite system driven in time

The simulation of `Verif.Whole.Schroedinger` (one `freeEvolution` of a composite system) with functions in the terms of all the systems.
-/
namespace Verif.TimeDep
open Verif.Sweep Verif.Cache Verif.Tree Verif.Toolbox Matrix
open Verif.Whole (Nice SweepsOk Reachable overwrite freeRun hamOf)

variable {P : Type} [DecidableEq P]

/-- The running simulation (0) with step size `dt`, and the one of the system (1), bound to it (`QSim.py:219`). -/
def simHeap (dt : ℝ) : Bound.Heap ℝ where
  val := fun s k => if s = 0 ∧ k = .step then some dt else none
  bnd := fun s _ => if s = 1 then .to 0 else .none
  tb := fun s => if s = 1 then some 0 else none
  dep := fun s => if s = 0 then [1] else []

/-- `freeRun` with the functions `F` of the terms of each system. -/
noncomputable def drivenRun (root : Sys) (T : (P → ℝ) → List Nat → List Term) (F : List Nat → List (TimeFn P ℝ)) (dt : P)
    (psi : (P → ℝ) → Ket root.dimension) (stepCount : (P → ℝ) → Nat) (sweeps : List (SweepObj ℝ)) (targets : List (List P)) :
    Cfg P ℝ (Op root.dimension) (Ket root.dimension) where
  toCfg := freeRun root T dt psi stepCount sweeps targets
  clock := ⟨fun v n => v * n, 0⟩
  sims := fun σ => simHeap (σ dt)
  index := fun _ => -1
  run := 0
  simOf := fun _ => 1
  fns := fun _ => visit F [] root

/-- Some function of some system assigns `q`. -/
def Assigned (root : Sys) (F : List Nat → List (TimeFn P ℝ)) (q : P) : Prop := ∃ p ∈ paths [] root, ∃ f ∈ F p, f.1 = q

/-- The functions assign different attributes and use none of these; neither do the step size, the initial state and the number of steps. -/
structure Separate (root : Sys) (F : List Nat → List (TimeFn P ℝ)) (dt : P) (psi : (P → ℝ) → Ket root.dimension) (stepCount : (P → ℝ) → Nat) :
    Prop where
  nodup : (((paths [] root).flatMap F).map Prod.fst).Nodup
  reads : ∀ p ∈ paths [] root, ∀ f ∈ F p, ∀ σ τ t, (∀ q, ¬ Assigned root F q → σ q = τ q) → f.2 σ t = f.2 τ t
  dt : ¬ Assigned root F dt
  psi : ∀ σ τ, (∀ q, ¬ Assigned root F q → σ q = τ q) → psi σ = psi τ
  count : ∀ σ τ, (∀ q, ¬ Assigned root F q → σ q = τ q) → stepCount σ = stepCount τ

section
variable {root : Sys} {T : (P → ℝ) → List Nat → List Term} {F : List Nat → List (TimeFn P ℝ)} {dt : P} {psi : (P → ℝ) → Ket root.dimension}
  {stepCount : (P → ℝ) → Nat} {sweeps : List (SweepObj ℝ)} {targets : List (List P)}

omit [DecidableEq P] in
theorem driven_timed (q : P) : Timed (drivenRun root T F dt psi stepCount sweeps targets) q ↔ Assigned root F q := by
  simp only [Timed, drivenRun, freeRun, List.mem_singleton, exists_eq_left, C73_visit, List.mem_flatMap, Assigned]
  constructor
  · rintro ⟨f, ⟨p, hp, hf⟩, e⟩; exact ⟨p, hp, f, hf, e⟩
  · rintro ⟨p, hp, f, hf, e⟩; exact ⟨f, ⟨p, hp, hf⟩, e⟩

omit [DecidableEq P] in
theorem driven_ok (h : Separate root F dt psi stepCount) :
    TimeOk (drivenRun root T F dt psi stepCount sweeps targets) (fun _ => []) (fun σ => σ dt) := by
  have ag : ∀ {σ τ : P → ℝ}, Agree (drivenRun root T F dt psi stepCount sweeps targets) σ τ → ∀ q, ¬ Assigned root F q → σ q = τ q :=
    fun ha q hq => ha q (by rw [driven_timed]; exact hq)
  refine ⟨fun _ => rfl, ⟨1, fun σ => ⟨rfl, fun i _ j _ _ => ⟨1, .up (b := 0) rfl (.here 0), by simp [drivenRun, freeRun]⟩⟩⟩, ?_, ?_, ?_,
    fun _ _ _ _ f hf => hf, ?_, ?_, ?_⟩
  · exact fun σ τ ha => ag ha dt h.dt
  · intro i _
    show ((visit F [] root).map Prod.fst).Nodup
    rw [C73_visit]
    exact h.nodup
  · intro i _ f hf σ τ t ha
    have hf : f ∈ visit F [] root := hf
    rw [C73_visit] at hf
    obtain ⟨p, hp, hf⟩ := List.mem_flatMap.mp hf
    exact h.reads p hp f hf σ τ t (ag ha)
  · intro i _ j _ _ p _ hp
    obtain ⟨k, -, f, hf, rfl⟩ := hp
    exact List.mem_map_of_mem hf
  · exact fun i σ τ ha => h.psi σ τ (ag ha)
  · exact fun σ τ ha => h.count σ τ (ag ha)

end

/-- At every sweep point, step `k` applies `exp(-i dt H)` with the Hamiltonian of the composite system whose time dependent attributes have their
values at `dt * (k + 1)`; the norm is that of the initial state throughout. -/
theorem C73_schroedinger {root : Sys} (hs : Shape root) (hp : Positions root) (T : (P → ℝ) → List Nat → List Term)
    (hT : ∀ σ, ∀ c ∈ contributions (T σ) (paths [] root), TermFits root c.1 c.2)
    (ha : ∀ σ, AdjClosed root (contributions (T σ) (paths [] root))) (F : List Nat → List (TimeFn P ℝ)) (dt : P)
    (psi : (P → ℝ) → Ket root.dimension) (stepCount : (P → ℝ) → Nat) (hF : Separate root F dt psi stepCount)
    (sweeps : List (SweepObj ℝ)) (targets : List (List P)) (hlen : targets.length = sweeps.length)
    (hsw : SweepsOk sweeps) (fd : FloatDiv) (ratio : Nat → ℝ) (st : St P ℝ (Op root.dimension))
    (hr : Reachable (freeRun root T dt psi stepCount sweeps targets).pr 100 ratio (fun _ => []) st) :
    ∃ r st', runSeq (drivenRun root T F dt psi stepCount sweeps targets) fd 0 st = some (r, st') ∧
      ∀ t, ValidIdx (axes sweeps) t → ∃ vals, Delivers sweeps t vals ∧ ∀ σ, σ = overwrite targets vals st.σ →
        ∃ x : List (Ket root.dimension), ∃ shown, nestedGet r t = some shown ∧ Shown (.list (x.map .atom)) shown ∧
          x.length = stepCount σ + 1 ∧ x[0]? = some (psi σ) ∧
          (∀ k < stepCount σ, ∃ v a, hamil root (T (atTime ((paths [] root).flatMap F) σ (σ dt * (k + 1)))) [] root = some v ∧
            x[k]? = some a ∧
            x[k + 1]? = some (unitaryOp (v.toOp root.dimension) (σ dt * ratio 0) * a)) ∧
          ∀ k ≤ stepCount σ, ∃ phi, x[k]? = some phi ∧ hc phi * phi = hc (psi σ) * psi σ := by
  obtain ⟨r, st', e, -, -, -, hpt⟩ := C73_run_partial (cfg := drivenRun root T F dt psi stepCount sweeps targets)
    (Whole.freeRun_nice root T dt psi stepCount sweeps targets hlen) (driven_ok hF) hsw fd st hr 0 (by simp [drivenRun, freeRun])
  refine ⟨r, st', e, fun t ht => ?_⟩
  obtain ⟨vals, x, shown, h1, h2, h4, h5⟩ := hpt t ht
  refine ⟨vals, h1, fun σ hσ => ?_⟩
  have h2 : Driven (drivenRun root T F dt psi stepCount sweeps targets) ratio (fun _ => []) (σ dt) σ 0 (stepCount σ) x := by
    rw [hσ]; exact h2
  obtain ⟨hl, h0, hk⟩ := h2
  have step : ∀ k < stepCount σ, ∃ v a, hamil root (T (atTime ((paths [] root).flatMap F) σ (σ dt * (k + 1)))) [] root = some v ∧
      (v.toOp root.dimension).IsHermitian ∧ x[k]? = some a ∧
      x[k + 1]? = some (unitaryOp (v.toOp root.dimension) (σ dt * ratio 0) * a) := by
    intro k hkn
    obtain ⟨v, hv, hh⟩ := C68_hermitian hs hp (T (atTime ((paths [] root).flatMap F) σ (σ dt * (k + 1)))) (hT _) (ha _)
    obtain ⟨a, hxa⟩ : ∃ a, x[k]? = some a := ⟨x[k]'(by omega), List.getElem?_eq_getElem (by omega)⟩
    obtain ⟨val, hval, hx1⟩ := hk k hkn a hxa
    refine ⟨v, a, hv, hh, hxa, ?_⟩
    rw [hx1, hval.leaf 0 rfl]
    have hdt : atTime ((paths [] root).flatMap F) σ (σ dt * (k + 1)) dt = σ dt := by
      apply atTime_off
      intro hm
      obtain ⟨f, hf, e⟩ := List.mem_map.mp hm
      obtain ⟨p, hp, hf⟩ := List.mem_flatMap.mp hf
      exact hF.dt ⟨p, hp, f, hf, e⟩
    show some (unitaryOp (hamOf root T (atTime (visit F [] root) σ (σ dt * (((k : Int) + 1 : Int) : ℝ))))
      (atTime (visit F [] root) σ (σ dt * (((k : Int) + 1 : Int) : ℝ)) dt * ratio 0) * a) = _
    rw [C73_visit]
    push_cast
    rw [hdt, hamOf, hv]
  refine ⟨x, shown, h4, h5, hl, h0, fun k hkn => ?_, ?_⟩
  · obtain ⟨v, a, h1, -, h2, h3⟩ := step k hkn
    exact ⟨v, a, h1, h2, h3⟩
  · intro k
    induction k with
    | zero => exact fun _ => ⟨_, h0, rfl⟩
    | succ k ih =>
      intro hkn
      obtain ⟨phi, hphi, hn⟩ := ih (by omega)
      obtain ⟨v, a, h1, hh, h2, h3⟩ := step k (by omega)
      obtain rfl : phi = a := by rw [hphi] at h2; exact Option.some.inj h2
      refine ⟨_, h3, ?_⟩
      have hu := (C41_unitary _ hh (σ dt * ratio 0)).1
      simp only [hc_eq, conjTranspose_mul] at hu hn ⊢
      rw [Matrix.mul_assoc, ← Matrix.mul_assoc _ _ phi, hu, Matrix.one_mul, hn]

/-- Two qubits with an exchange coupling (`some true`) that is the frequency (`some false`) times the time, and a sweep over the step size (`none`). -/
example (fd : FloatDiv) (psi : Ket 4) (σ : Option Bool → ℝ) (t1 t2 : ℝ) : ∃ r st',
    runSeq (drivenRun pair (fun σ => exchange (σ (some false)) (σ (some true)))
      (fun p => if p = [] then [(some true, fun σ t => σ (some false) * t)] else []) none (fun _ => psi) (fun _ => 50)
      [⟨[t1, t2], false⟩] [[none]]) fd 0 (init σ (fun _ => 1) (fun _ => [])) = some (r, st') ∧
    ∃ v, ∃ x : List (Ket 4), hamil pair (exchange (σ (some false)) (σ (some false) * (t2 * 7))) [] pair = some v ∧
      nestedGet r [1] = some (.list (x.map .atom)) ∧
      ∃ a : Ket 4, x[6]? = some a ∧ x[7]? = some (unitaryOp (v.toOp 4) t2 * a) ∧ hc a * a = hc psi * psi := by
  have hAs : ∀ q : Option Bool, Assigned (P := Option Bool) pair (fun p => if p = [] then [(some true, fun σ t => σ (some false) * t)] else []) q ↔
      q = some true := by
    intro q
    simp [Assigned, pair, paths, pathsL, eq_comm]
  obtain ⟨r, st', e, h⟩ := C73_schroedinger (P := Option Bool) pair_wf.1 pair_wf.2 (fun σ => exchange (σ (some false)) (σ (some true)))
    (fun _ => exchange_fits _ _) (fun _ => exchange_closed _ _)
    (fun p => if p = [] then [(some true, fun σ t => σ (some false) * t)] else []) none (fun _ => psi) (fun _ => 50)
    ⟨by simp [pair, paths, pathsL], by
      intro p _ f hf σ τ t hq
      have := hq (some false) (by rw [hAs]; simp)
      by_cases hp : p = []
      · obtain rfl : f = (some true, fun σ t => σ (some false) * t) := by simpa [hp] using hf
        simp [this]
      · simp [hp] at hf, by rw [hAs]; simp, fun _ _ _ => rfl, fun _ _ _ => rfl⟩
    [⟨[t1, t2], false⟩] [[none]] rfl
    ⟨⟨_, _, rfl, rfl⟩, by
      intro j s hj n hn
      match j with
      | 0 => simp at hj; subst hj; simp [axes, axisOf] at hn; simp [← hn]
      | j + 1 => simp at hj, by simp [axes]⟩ fd (fun _ => 1) _ ⟨σ, [], by simp, rfl⟩
  refine ⟨r, st', e, ?_⟩
  obtain ⟨vals, hd, h⟩ := h [1] (.cons (by simp) .nil)
  obtain rfl : vals = [t2] := by
    obtain ⟨hl, hd⟩ := hd
    obtain ⟨i, hi, e1, -⟩ := hd 0 _ rfl
    simp [axisOf] at hi
    subst hi
    match vals, hl with
    | [a], _ => simp at e1; rw [e1]
  obtain ⟨x, shown, h4, h5, h6, h7, h8, h9⟩ := h _ rfl
  obtain ⟨v, a, hv, ha, hx⟩ := h8 6 (by norm_num)
  obtain ⟨phi, hphi, hn⟩ := h9 6 (by norm_num)
  obtain rfl : phi = a := by rw [hphi] at ha; exact Option.some.inj ha
  refine ⟨v, x, ?_, ?_, phi, hphi, ?_, hn⟩
  · have e7 : ((6 : ℕ) : ℝ) + 1 = 7 := by norm_num
    rw [e7] at hv
    simpa [overwrite, Cache.init, atTime, pair, paths, pathsL] using hv
  · rw [h4, h5.2]
    intro y hy
    have : (x.map PyVal.atom).length = 1 := by rw [PyVal.list.inj hy]; rfl
    rw [List.length_map, h6] at this
    omega
  · simp [overwrite] at hx
    exact hx

end Verif.TimeDep
