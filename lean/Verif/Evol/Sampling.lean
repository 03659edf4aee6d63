import Verif.Toolbox.EvolutionProps
import Verif.Sweep.Props
import Verif.Evol.Time
import Mathlib.Analysis.SpecialFunctions.Trigonometric.Basic
import Mathlib.Analysis.SpecialFunctions.Exponential

/-!
# C09 (sampling inside a step) and C51 (time-dependent sweep)

Source: `/repo/src/quanguru/classes/modularSweep.py:39-49,97-161`, `QPro.py:60-454`.
-/
namespace Verif.Evol
open Matrix Verif.Toolbox

/-- What a step of a closed protocol is: a `freeEvolution` (`QPro.py:384-409`) with its Hamiltonian and ratio, or a `Gate`
(`QPro.py:411-454`, `QGates.py`), whose matrix does not depend on the time parameters. -/
inductive StepKind (d : ℕ) where
  | free (H : Op d) (ratio : ℝ)
  | gate (G : Op d)

/-- A step of a protocol together with `step.simulation.samples`. -/
structure SStep (d : ℕ) where
  kind    : StepKind d
  samples : ℕ

/-- `step.unitary()`: `freeEvolution.matrixExponentiation` (`QPro.py:400-407`) uses `stepSize*ratio/samples`. -/
noncomputable def stepUnitary {d : ℕ} (dt : ℝ) (s : SStep d) : Op d :=
  match s.kind with
  | .free H ratio => unitaryOp H ((dt * ratio) / (s.samples : ℝ))
  | .gate G => G

/-- `runSimulation` (`modularSweep.py:41-44`): whether `stepSample` is switched on. -/
def stepSample {d : ℕ} (steps : List (SStep d)) : Bool := steps.any fun s => decide (1 < s.samples)

/-- Inner loop `for _ in range(step.simulation.samples)` (`modularSweep.py:157-159`). -/
def sampleLoop {d : ℕ} (U : Op d) : ℕ → Ket d × List (Ket d) → Ket d × List (Ket d)
  | 0, acc => acc
  | k + 1, (cur, out) => sampleLoop U k (U * cur, out ++ [U * cur])

/-- The sampling branch (`modularSweep.py:155-159`): current state and `sampleStates`. -/
noncomputable def sampledStep {d : ℕ} (dt : ℝ) : List (SStep d) → Ket d × List (Ket d) → Ket d × List (Ket d)
  | [], acc => acc
  | s :: ss, acc => sampledStep dt ss (sampleLoop (stepUnitary dt s) s.samples acc)

/-- `qProtocol._defCreateUnitary` (`QPro.py:330-336`), from scratch: product of the steps' unitaries. -/
noncomputable def protocolUnitary {d : ℕ} (dt : ℝ) (steps : List (SStep d)) : Op d :=
  steps.foldl (fun u s => stepUnitary dt s * u) 1

/-- One evolution step of a closed `qProtocol` (`modularSweep.py:153-161`). -/
noncomputable def closedProtocolStep {d : ℕ} (dt : ℝ) (steps : List (SStep d)) (cur : Ket d) : Ket d × List (Ket d) :=
  if stepSample steps then sampledStep dt steps (cur, []) else (protocolUnitary dt steps * cur, [])

/-- The same protocol with one sample per step. -/
def withSamples {d : ℕ} (n : ℕ) (steps : List (SStep d)) : List (SStep d) := steps.map fun s => { s with samples := n }

/-! ## C09 -/

theorem sampleLoop_fst {d : ℕ} (U : Op d) : ∀ (k : ℕ) (cur : Ket d) (out : List (Ket d)),
    (sampleLoop U k (cur, out)).1 = U ^ k * cur := by
  intro k
  induction k with
  | zero => intro cur out; simp [sampleLoop]
  | succ k ih => intro cur out; rw [sampleLoop, ih, pow_succ, Matrix.mul_assoc]

theorem sampleLoop_snd {d : ℕ} (U : Op d) : ∀ (k : ℕ) (cur : Ket d) (out : List (Ket d)),
    (sampleLoop U k (cur, out)).2 = out ++ (List.range k).map (fun j => U ^ (j + 1) * cur) := by
  intro k
  induction k with
  | zero => intro cur out; simp [sampleLoop]
  | succ k ih =>
    intro cur out
    rw [sampleLoop, ih, List.range_succ_eq_map, List.map_cons, List.map_map]
    simp [Function.comp_def, pow_succ, Matrix.mul_assoc]

theorem unitaryOp_pow {d : ℕ} (H : Op d) (t : ℝ) (n : ℕ) : unitaryOp H t ^ n = unitaryOp H (n * t) := by
  induction n with
  | zero => simp [C41_zero]
  | succ n ih => rw [pow_succ, ih, C41_compose]; congr 1; push_cast; ring

/-- Specification of one full protocol step without sampling: the exact propagators of the steps, in order. -/
noncomputable def exactStep {d : ℕ} (dt : ℝ) : List (Op d × ℝ) → Ket d → Ket d
  | [], cur => cur
  | (H, ratio) :: ss, cur => exactStep dt ss (unitaryOp H (dt * ratio) * cur)

/-- `steps` is the protocol of free evolutions `hs` with at least one sample in every step. -/
def FreeSteps {d : ℕ} (hs : List (Op d × ℝ)) (steps : List (SStep d)) : Prop :=
  List.Forall₂ (fun (h : Op d × ℝ) s => s.kind = .free h.1 h.2 ∧ 0 < s.samples) hs steps

theorem sampledStep_free {d : ℕ} (dt : ℝ) (hs : List (Op d × ℝ)) (steps : List (SStep d)) (h : FreeSteps hs steps) :
    ∀ (cur : Ket d) (out : List (Ket d)), (sampledStep dt steps (cur, out)).1 = exactStep dt hs cur := by
  induction h with
  | nil => intro cur out; rfl
  | @cons a s l1 l2 hhs _ ih =>
    intro cur out
    obtain ⟨hk, hn⟩ := hhs
    have hpow : stepUnitary dt s ^ s.samples = unitaryOp a.1 (dt * a.2) := by
      have : (s.samples : ℝ) ≠ 0 := by exact_mod_cast hn.ne'
      rw [stepUnitary, hk]
      simp only
      rw [unitaryOp_pow]
      congr 1
      field_simp
    rw [sampledStep, ← Prod.mk.eta (p := sampleLoop _ _ _), ih, sampleLoop_fst, hpow, exactStep]

theorem protocolUnitary_mul {d : ℕ} (dt : ℝ) (steps : List (SStep d)) : ∀ (u : Op d) (cur : Ket d),
    steps.foldl (fun (u : Op d) s => stepUnitary dt s * u) u * cur
      = steps.foldl (fun (c : Ket d) s => stepUnitary dt s * c) (u * cur) := by
  induction steps with
  | nil => intro u cur; rfl
  | cons s ss ih => intro u cur; rw [List.foldl_cons, ih, List.foldl_cons, Matrix.mul_assoc]

theorem protocolUnitary_free {d : ℕ} (dt : ℝ) (hs : List (Op d × ℝ)) (steps : List (SStep d)) (h : FreeSteps hs steps)
    (h1 : ∀ s ∈ steps, s.samples = 1) : ∀ (cur : Ket d),
    steps.foldl (fun (c : Ket d) s => stepUnitary dt s * c) cur = exactStep dt hs cur := by
  induction h with
  | nil => intro cur; rfl
  | @cons a s l1 l2 hhs _ ih =>
    intro cur
    have hs1 := h1 s (by simp)
    rw [List.foldl_cons, ih (fun t ht => h1 t (List.mem_cons_of_mem _ ht)), exactStep, stepUnitary, hhs.1, hs1]
    simp

/-- **C09** (free-evolution steps): the state after one full protocol step does not depend on the numbers of samples; it is
the product of the exact propagators of the steps. -/
theorem C09_sampling_free_partial {d : ℕ} (dt : ℝ) (hs : List (Op d × ℝ)) (steps : List (SStep d))
    (h : FreeSteps hs steps) (cur : Ket d) : (closedProtocolStep dt steps cur).1 = exactStep dt hs cur := by
  unfold closedProtocolStep
  split
  · exact sampledStep_free dt hs steps h cur []
  · next hn =>
    have h1 : ∀ s ∈ steps, s.samples = 1 := by
      intro s hs'
      have hle : ¬ 1 < s.samples := by
        intro hgt
        apply hn
        rw [stepSample, List.any_eq_true]
        exact ⟨s, hs', by simpa using hgt⟩
      have hpos : 0 < s.samples := by
        obtain ⟨i, hi, rfl⟩ := List.getElem_of_mem hs'
        exact (List.forall₂_iff_get.mp h).2 i (by rw [h.length_eq]; exact hi) hi |>.2
      omega
    have := protocolUnitary_mul dt steps 1 cur
    rw [Matrix.one_mul] at this
    show protocolUnitary dt steps * cur = _
    rw [protocolUnitary, this]
    exact protocolUnitary_free dt hs steps h h1 cur

/-- **C09**: when no step asks for more than one sample, the steps are applied in order, once each, and no sample states are
recorded. -/
theorem C09_no_sampling {d : ℕ} (dt : ℝ) (steps : List (SStep d)) (h : ∀ s ∈ steps, s.samples ≤ 1) (cur : Ket d) :
    closedProtocolStep dt steps cur = (steps.foldl (fun (c : Ket d) s => stepUnitary dt s * c) cur, []) := by
  have h0 : stepSample steps = false := by
    unfold stepSample
    rw [List.any_eq_false]
    intro s hs
    have := h s hs
    simp
    omega
  have := protocolUnitary_mul dt steps 1 cur
  rw [Matrix.one_mul] at this
  rw [closedProtocolStep, h0, protocolUnitary, ← this]
  rfl

/-- **C09**: for every protocol (any kinds of steps) in the sampling branch, step `s` contributes exactly `s.samples` sample
states, appended in step order; the last sample state of the protocol is the state after the step. -/
theorem C09_sample_counts {d : ℕ} (dt : ℝ) (steps : List (SStep d)) : ∀ (cur : Ket d) (out : List (Ket d)),
    ∃ blocks : List (List (Ket d)), (sampledStep dt steps (cur, out)).2 = out ++ blocks.flatten
      ∧ blocks.map List.length = steps.map (·.samples)
      ∧ (∀ x, blocks.flatten.getLast? = some x → (sampledStep dt steps (cur, out)).1 = x) := by
  induction steps with
  | nil => intro cur out; exact ⟨[], by simp [sampledStep], rfl, by simp⟩
  | cons s ss ih =>
    intro cur out
    have e : sampleLoop (stepUnitary dt s) s.samples (cur, out)
        = (stepUnitary dt s ^ s.samples * cur, out ++ (List.range s.samples).map (fun j => stepUnitary dt s ^ (j + 1) * cur)) :=
      Prod.ext (sampleLoop_fst _ _ _ _) (sampleLoop_snd _ _ _ _)
    obtain ⟨bl, h1, h2, h3⟩ := ih (stepUnitary dt s ^ s.samples * cur)
      (out ++ (List.range s.samples).map (fun j => stepUnitary dt s ^ (j + 1) * cur))
    refine ⟨(List.range s.samples).map (fun j => stepUnitary dt s ^ (j + 1) * cur) :: bl, ?_, ?_, ?_⟩
    · rw [sampledStep, e, h1]; simp
    · simp [h2]
    · intro x hx
      rw [sampledStep, e]
      rw [List.flatten_cons, List.getLast?_append] at hx
      cases hb : bl.flatten.getLast? with
      | some y => rw [hb] at hx; simp at hx; rw [h3 y hb, hx]
      | none =>
        rw [hb] at hx
        simp only [Option.none_or] at hx
        have hall : ∀ t ∈ ss, t.samples = 0 := by
          have hnil : bl.flatten = [] := List.getLast?_eq_none_iff.mp hb
          intro t ht
          have : t.samples ∈ bl.map List.length := by rw [h2]; exact List.mem_map_of_mem ht
          obtain ⟨b, hbm, hbl⟩ := List.mem_map.mp this
          rw [← hbl, List.flatten_eq_nil_iff.mp hnil b hbm]; rfl
        have hzero : ∀ (ss : List (SStep d)), (∀ t ∈ ss, t.samples = 0) → ∀ acc, sampledStep dt ss acc = acc := by
          intro ss
          induction ss with
          | nil => intro _ acc; rfl
          | cons t ts iht =>
            intro h acc
            rw [sampledStep, h t (by simp), iht (fun u hu => h u (List.mem_cons_of_mem _ hu))]
            rfl
        rw [hzero ss hall]
        cases hn : s.samples with
        | zero => rw [hn] at hx; simp at hx
        | succ k =>
          rw [hn, List.range_succ] at hx
          simp at hx
          rw [← hx]

/-- **C09** is false as soon as a gate is among the steps: with two samples the gate is applied twice, so an X gate does
nothing (`samples=1`: `|0> ↦ |1>`, `samples=2`: `|0> ↦ |0>`). -/
theorem C09_gate_applied_repeatedly {d : ℕ} (dt : ℝ) (G : Op d) (n : ℕ) (hn : 1 < n) (cur : Ket d) :
    (closedProtocolStep dt [⟨.gate G, n⟩] cur).1 = G ^ n * cur := by
  simp [closedProtocolStep, stepSample, hn, sampledStep, sampleLoop_fst, stepUnitary]

theorem C09_gate_sampling_changes_evolution :
    ∃ (steps : List (SStep 2)) (cur : Ket 2), (closedProtocolStep 1 (withSamples 2 steps) cur).1
      ≠ (closedProtocolStep 1 (withSamples 1 steps) cur).1 := by
  have key : ∀ (G : Op 2) (cur : Ket 2), (closedProtocolStep 1 (withSamples 2 [⟨.gate G, 1⟩]) cur).1
      = (closedProtocolStep 1 (withSamples 1 [⟨.gate G, 1⟩]) cur).1 → G ^ 2 * cur = G * cur := by
    intro G cur h
    rw [show withSamples 2 [(⟨.gate G, 1⟩ : SStep 2)] = [⟨.gate G, 2⟩] from rfl,
      C09_gate_applied_repeatedly 1 G 2 (by omega)] at h
    rw [h]
    simp [closedProtocolStep, stepSample, withSamples, protocolUnitary, stepUnitary]
  refine ⟨[⟨.gate !![0, 1; 1, 0], 1⟩], !![1; 0], fun h => ?_⟩
  have := congrFun (congrFun (key _ _ h) 0) 0
  simp [pow_two] at this

/-- One evolution step of a plain `freeEvolution` protocol (it has no `steps`, so the sampling branch is never taken,
`modularSweep.py:42,161`), closed system. -/
noncomputable def freeProtocolStep {d : ℕ} (dt : ℝ) (H : Op d) (ratio : ℝ) (samples : ℕ) (cur : Ket d) : Ket d :=
  stepUnitary dt ⟨.free H ratio, samples⟩ * cur

/-- **C09** is false for a plain free evolution: with `samples = n` one time step advances the state only by `dt/n`; with
Hamiltonian `diag(1,0)`, `dt = pi` and two samples the state differs from the one with one sample. -/
theorem C09_free_protocol_changes_evolution :
    (∀ {d : ℕ} (dt : ℝ) (H : Op d) (n : ℕ) (cur : Ket d), freeProtocolStep dt H 1 n cur = unitaryOp H (dt / n) * cur) ∧
    ∃ (dt : ℝ) (H : Op 2) (cur : Ket 2), freeProtocolStep dt H 1 2 cur ≠ freeProtocolStep dt H 1 1 cur := by
  refine ⟨fun dt H n cur => by simp [freeProtocolStep, stepUnitary], Real.pi, diagonal ![1, 0], !![1; 0], fun h => ?_⟩
  have hexp : ∀ t : ℝ, unitaryOp (diagonal ![1, 0] : Op 2) t = diagonal (NormedSpace.exp ![-(t * Complex.I), 0]) := by
    intro t
    rw [unitaryOp, ← Matrix.exp_diagonal]
    congr 1
    ext i j
    fin_cases i <;> fin_cases j <;> simp
  have h0 := congrFun (congrFun h 0) 0
  simp only [freeProtocolStep, stepUnitary, hexp, Matrix.diagonal_mul] at h0
  simp only [Pi.coe_exp, ← Complex.exp_eq_exp_ℂ] at h0
  simp only [mul_one, Nat.cast_ofNat, Nat.cast_one, div_one, Matrix.cons_val_zero, Complex.ofReal_div,
    Complex.ofReal_ofNat, Matrix.of_apply] at h0
  rw [Complex.exp_neg, Complex.exp_neg, Complex.exp_pi_mul_I, show (Real.pi : ℂ) / 2 * Complex.I = Real.pi / 2 * Complex.I by ring,
    Complex.exp_pi_div_two_mul_I] at h0
  have := congrArg Complex.re h0
  norm_num at this

example (ψ : Ket 2) : (closedProtocolStep 1 [⟨.free !![1, 0; 0, -1] 1, 3⟩, ⟨.free !![0, 1; 1, 0] (1/2), 1⟩] ψ).1
    = unitaryOp !![0, 1; 1, 0] (1 * (1/2)) * (unitaryOp !![1, 0; 0, -1] (1 * 1) * ψ) :=
  C09_sampling_free_partial 1 [(!![1, 0; 0, -1], 1), (!![0, 1; 1, 0], 1/2)]
    [⟨.free !![1, 0; 0, -1] 1, 3⟩, ⟨.free !![0, 1; 1, 0] (1/2), 1⟩]
    (.cons ⟨rfl, by decide⟩ (.cons ⟨rfl, by decide⟩ .nil)) ψ

/-! ## C51 -/

open Verif.Sweep Verif.Time

/-- The values delivered during the evolution loop with a `timeDependency` sweep (`modularSweep.py:97-113,131-137`):
`prepare` computes `inds`; line 109 overwrites the stored step count with `indMultip`, but `range(qSim.stepCount)` (line 132)
calls the property, which recomputes it from total time and step size (`QSimBase.py:353-372`); at every index the sweep runs
with `_indicesForSweep(ind, *inds)`. Simplification: one simulation object. -/
def tdValues {α : Type} (fd : FloatDiv) (sweeps : List (SweepObj α)) (s : TS) : Option (List (List α)) :=
  let sw := prepare {} sweeps
  let s := { s with stepCount := some (sw.indMultip : ℤ) }
  match getStepCount s with
  | none => none
  | some (n, _) => (List.range n.toNat).mapM fun ind => sweepPoint fd sw sweeps ind

theorem sweepPoint_single {α : Type} (fd : FloatDiv) (vals : List α) (ind : ℕ) (v : α)
    (hv : vals[ind % vals.length]? = some v) :
    sweepPoint fd (prepare {} [(⟨vals, false⟩ : SweepObj α)]) [⟨vals, false⟩] ind = some [v] := by
  have hne : vals.length ≠ 0 := by
    intro h0
    rw [List.length_eq_zero_iff] at h0
    subst h0
    simp at hv
  simp [sweepPoint, prepare, prepareLoop, indicesForSweep, indicesLoop, hne, runSweep, runSweepLoop, hv]

theorem mapM_some {α β : Type} (f : α → Option β) (g : α → β) : ∀ (l : List α), (∀ a ∈ l, f a = some (g a)) →
    l.mapM f = some (l.map g) := by
  intro l
  induction l with
  | nil => intro _; rfl
  | cons a l ih =>
    intro h
    rw [List.mapM_cons, h a (by simp), ih (fun b hb => h b (List.mem_cons_of_mem _ hb))]
    rfl

/-- The values delivered by a one-parameter time-dependent sweep: position `ind mod N` at step `ind`, for
`floor(T/dt)+1` steps. -/
theorem tdValues_eq {α : Type} (fd : FloatDiv) (vals : List α) (hne : vals ≠ []) (T dt : ℚ) (hdt : dt ≠ 0) (c : Option ℤ) :
    tdValues fd [⟨vals, false⟩] ⟨some T, some dt, c⟩
      = some ((List.range (⌊T / dt⌋ + 1).toNat).map fun k => [vals[k % vals.length]'(Nat.mod_lt _ (List.length_pos_iff.mpr hne))]) := by
  simp only [tdValues, getStepCount, fillTotalTime, steps, hdt, if_false]
  apply mapM_some
  intro k _
  exact sweepPoint_single fd vals k _ (List.getElem?_eq_getElem _)

/-- **C51** holds when the time grid has exactly as many steps as the list has values, i.e. `N-1 <= T/dt < N`. -/
theorem C51_each_value_once_partial {α : Type} (fd : FloatDiv) (vals : List α) (hne : vals ≠ []) (T dt : ℚ) (hdt : dt ≠ 0)
    (c : Option ℤ) (hlo : (vals.length : ℚ) - 1 ≤ T / dt) (hhi : T / dt < vals.length) :
    tdValues fd [⟨vals, false⟩] ⟨some T, some dt, c⟩ = some (vals.map fun v => [v]) := by
  have hfl : ⌊T / dt⌋ = (vals.length : ℤ) - 1 := by
    rw [Int.floor_eq_iff]; push_cast; exact ⟨hlo, by linarith⟩
  rw [tdValues_eq fd vals hne T dt hdt c, hfl]
  congr 1
  apply List.ext_getElem
  · simp
  · intro i h1 h2
    have hi : i < vals.length := by simpa using h2
    simp [Nat.mod_eq_of_lt hi]

/-- **C51** exactly then: the values used are those of the list, each once and in order, if and only if `N-1 <= T/dt < N`. -/
theorem C51_each_value_once_iff {α : Type} (fd : FloatDiv) (vals : List α) (hne : vals ≠ []) (T dt : ℚ) (hdt : dt ≠ 0) (c : Option ℤ) :
    tdValues fd [⟨vals, false⟩] ⟨some T, some dt, c⟩ = some (vals.map fun v => [v]) ↔
      (vals.length : ℚ) - 1 ≤ T / dt ∧ T / dt < vals.length := by
  refine ⟨fun h => ?_, fun h => C51_each_value_once_partial fd vals hne T dt hdt c h.1 h.2⟩
  rw [tdValues_eq fd vals hne T dt hdt c] at h
  have h := congrArg List.length (Option.some.inj h)
  simp only [List.length_map, List.length_range] at h
  have hpos := List.length_pos_iff.mpr hne
  have hfl : ⌊T / dt⌋ = (vals.length : ℤ) - 1 := by omega
  rw [Int.floor_eq_iff] at hfl
  push_cast at hfl
  exact ⟨hfl.1, by linarith [hfl.2]⟩

theorem indicesLoop_pos (fd : FloatDiv) : ∀ (args : List Nat) (i : Nat) (acc : List Nat), (∀ a ∈ args, 0 < a) → i ≤ 2 ^ 53 →
    indicesLoop fd i args acc = some ((digits i args).reverse ++ acc)
  | [], i, acc, _, _ => by simp [indicesLoop, digits]
  | a :: as, i, acc, h, hb => by
    have ha : 0 < a := h a (by simp)
    have hdiv : fd.div (i - i % a) a = i / a := by
      rw [fd.exact _ _ ha (Nat.dvd_sub_mod i)]
      · rw [← Nat.div_eq_sub_mod_div]
      · rw [← Nat.div_eq_sub_mod_div]
        exact le_trans (Nat.div_le_self _ _) hb
    rw [indicesLoop, if_neg (by omega)]
    simp only [hdiv]
    rw [indicesLoop_pos fd as _ _ (fun b hb => h b (by simp [hb])) (le_trans (Nat.div_le_self _ _) hb)]
    simp [digits]

/-- **C51**, several parameters: step `k` uses the combination number `k mod M` of the `M` combinations of C01, in the order of C01, every
sweep delivering its own value, for `floor(T/dt)+1` steps. -/
theorem C51_combinations {α : Type} (fd : FloatDiv) (s : SweepObj α) (ss : List (SweepObj α)) (hs : s.comb = false)
    (hl : LongEnough (s :: ss)) (hpos : ∀ n ∈ axes (s :: ss), 0 < n) (T dt : ℚ) (hdt : dt ≠ 0) (c : Option ℤ)
    (hb : ⌊T / dt⌋ < 2 ^ 53) :
    ∃ l, tdValues fd (s :: ss) ⟨some T, some dt, c⟩ = some l ∧ l.length = (⌊T / dt⌋ + 1).toNat ∧
      ∀ k vals, l[k]? = some vals → ∃ t, (tuples (axes (s :: ss)))[k % (axes (s :: ss)).prod]? = some t ∧
        Delivers (s :: ss) t vals := by
  set L := axes (s :: ss) with hL
  have hprod : 0 < L.prod := Nat.pos_of_ne_zero fun h0 => by
    have := List.prod_eq_zero_iff.1 h0
    exact absurd (hpos 0 this) (by simp)
  have key : ∀ k, k ≤ 2 ^ 53 → ∃ vals, sweepPoint fd (prepare {} (s :: ss)) (s :: ss) k = some vals ∧
      Delivers (s :: ss) (idxOf L (k % L.prod)) vals := by
    intro k hk
    obtain ⟨vals, h1, h2⟩ := C03_lockstep_partial s ss hs hl (idxOf L (k % L.prod)) (idxOf_valid L _ (Nat.mod_lt _ hprod))
    refine ⟨vals, ?_, h2⟩
    rw [sweepPoint, prepare_inds _ _ (List.cons_ne_nil s ss), if_pos (by simp [axes]), indicesForSweep,
      indicesLoop_pos fd _ _ _ (fun a ha => hpos a (List.mem_reverse.1 ha)) hk]
    simp only [List.append_nil]
    rw [← h1, ← idxOf_mod L k hprod]
    rfl
  choose! g hg hd using key
  refine ⟨(List.range (⌊T / dt⌋ + 1).toNat).map g, ?_, by simp, fun k vals hv => ?_⟩
  · simp only [tdValues, getStepCount, fillTotalTime, steps, hdt, if_false]
    apply mapM_some
    intro k hk
    have := List.mem_range.1 hk
    exact hg k (by omega)
  · rw [List.getElem?_map] at hv
    have hk : k < (⌊T / dt⌋ + 1).toNat := by
      by_contra h
      rw [List.getElem?_eq_none (by simpa using h)] at hv
      simp at hv
    rw [List.getElem?_range hk] at hv
    simp only [Option.map_some, Option.some.injEq] at hv
    refine ⟨_, ?_, hv ▸ hd k (by omega)⟩
    rw [← map_idxOf_range, List.getElem?_map, List.getElem?_range (Nat.mod_lt _ hprod)]
    rfl

/-- **C51** is false for the natural choice `totalTime = N * stepSize`: the evolution then makes one more step, which uses
the *first* value again. -/
theorem C51_wraps_around {α : Type} (fd : FloatDiv) (vals : List α) (hne : vals ≠ []) (dt : ℚ) (hdt : dt ≠ 0)
    (c : Option ℤ) :
    tdValues fd [⟨vals, false⟩] ⟨some (vals.length * dt), some dt, c⟩
      = some ((vals ++ [vals.head hne]).map fun v => [v]) := by
  have hfl : ⌊(vals.length : ℚ) * dt / dt⌋ = (vals.length : ℤ) := by
    rw [mul_div_assoc, div_self hdt, mul_one]; exact Int.floor_natCast _
  rw [tdValues_eq fd vals hne _ dt hdt c, hfl]
  congr 1
  apply List.ext_getElem
  · simp
  · intro i h1 h2
    have hi : i < vals.length + 1 := by simpa using h2
    by_cases h : i < vals.length
    · rw [List.getElem_map, List.getElem_map, List.getElem_append_left h]; simp [Nat.mod_eq_of_lt h]
    · have : i = vals.length := by omega
      subst this
      simp [List.head_eq_getElem]

/-- Only the time axis matters: setting just the step size before a run does not help, the total time is then computed from
the number of values and the same extra step appears. -/
theorem C51_wraps_around_without_totalTime {α : Type} (fd : FloatDiv) (vals : List α) (hne : vals ≠ []) (dt : ℚ)
    (hdt : dt ≠ 0) (c : Option ℤ) :
    tdValues fd [⟨vals, false⟩] ⟨none, some dt, c⟩ = some ((vals ++ [vals.head hne]).map fun v => [v]) := by
  rw [← C51_wraps_around fd vals hne dt hdt c]
  simp [tdValues, getStepCount, fillTotalTime, prepare, prepareLoop, reduceMul]

example (fd : FloatDiv) : tdValues fd [⟨["a", "b", "c"], false⟩] ⟨some 2, some 1, none⟩ = some [["a"], ["b"], ["c"]] :=
  C51_each_value_once_partial fd ["a", "b", "c"] (by simp) 2 1 (by norm_num) none (by norm_num) (by norm_num)

example (fd : FloatDiv) : tdValues fd [⟨["a", "b"], false⟩] ⟨none, some 1, none⟩ = some [["a"], ["b"], ["a"]] :=
  C51_wraps_around_without_totalTime fd ["a", "b"] (by simp) 1 (by norm_num) none

example : LongEnough [(⟨["a", "b"], false⟩ : SweepObj String), ⟨["x", "y", "z"], true⟩] ∧
    tdValues exactDiv [⟨["a", "b"], false⟩, ⟨["x", "y", "z"], true⟩] ⟨some 6, some 1, none⟩ =
      some [["a", "x"], ["a", "y"], ["a", "z"], ["b", "x"], ["b", "y"], ["b", "z"], ["a", "x"]] := by
  refine ⟨?_, by decide +kernel⟩
  intro j s hj n hn
  match j with
  | 0 => simp at hj; subst hj; simp [axes, axisOf] at hn; simp [← hn]
  | 1 => simp at hj; subst hj; simp [axes, axisOf] at hn; simp [← hn]
  | j + 2 => simp at hj

end Verif.Evol
