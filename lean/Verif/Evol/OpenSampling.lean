import Verif.Cache.Open

/-!
# C09 for open systems

The branch of `timeEvolBase` for open protocols (`modularSweep.py:149-152`) does not ask for samples, but the step sizes are divided by
the numbers of samples all the same.
-/
namespace Verif.Open
open Verif.Toolbox Matrix NormedSpace

variable {n : ℕ}

/-- A step of a protocol that is a `freeEvolution`: its dissipators, Hamiltonian, `ratio` and `simulation.samples`. -/
structure OSStep (n : ℕ) where
  D : List (Op n × ℝ)
  H : Op n
  ratio : ℝ
  samples : ℕ

/-- The step with the time of `matrixExponentiation` (`QPro.py:404`): `stepSize*ratio/samples`. -/
noncomputable def OSStep.proto (dt : ℝ) (s : OSStep n) : Proto n := .free s.D s.H (dt * s.ratio / s.samples)

/-- One time step of an open `qProtocol` with dissipators `D` (`modularSweep.py:119-120, 149-152`): the new state and `sampleStates`, which
were cleared at the start.  `none` is an exception. -/
noncomputable def openTimeStep (dt : ℝ) (D : List (Op n × ℝ)) (steps : List (OSStep n)) (rho : Op n) : Option (Op n × List (Op n)) :=
  (unitaryOpen (.comp D (steps.map (OSStep.proto dt)))).map fun u => (vec2Mat (u * mat2Vec rho), [])

/-- All steps with `k` samples. -/
def allSamples (k : ℕ) (steps : List (OSStep n)) : List (OSStep n) := steps.map fun s => { s with samples := k }

/-- **C09** (negation) with `k` samples per step one time step of an open protocol advances the state by the `k`-th part of the time, once:
it is a time step of length `dt/k` without samples.  This holds for all steps, dissipators and states. -/
theorem C09_open_advance (dt : ℝ) (D : List (Op n × ℝ)) (steps : List (OSStep n)) (k : ℕ) (rho : Op n) :
    openTimeStep dt D (allSamples k steps) rho = openTimeStep (dt / k) D (allSamples 1 steps) rho := by
  unfold openTimeStep allSamples
  have : (steps.map fun s => { s with samples := k }).map (OSStep.proto dt) =
      (steps.map fun s => { s with samples := 1 }).map (OSStep.proto (dt / k)) := by
    rw [List.map_map, List.map_map]
    refine List.map_congr_left fun s _ => ?_
    simp only [Function.comp, OSStep.proto, Nat.cast_one, div_one]
    congr 1
    ring
  rw [this]

/-- **C09** (negation, witness) a decaying qubit: the time step succeeds, there are no samples, and the population of the upper level is
`exp(-g*dt/k)` instead of `exp(-g*dt)`. -/
theorem C09_open_decay (g dt : ℝ) (k : ℕ) :
    ∃ rho, openTimeStep dt [] (allSamples k [⟨[(sigmam, g)], 0, 1, 1⟩]) (!![1, 0; 0, 0] : Op 2) = some (rho, []) ∧
      rho 0 0 = Complex.exp (-((dt / k : ℝ) * g)) := by
  refine ⟨_, ?_, pop_decay g (dt / k) (!![1, 0; 0, 0] : Op 2) |>.trans (by simp)⟩
  unfold openTimeStep
  rw [C53_steps_once_partial _ rfl]
  simp [allSamples, OSStep.proto, propagator, productFrom]

theorem product_steps (dt : ℝ) (ctx : List (Op n × ℝ)) (steps : List (OSStep n)) : ∀ (acc : Op (n * n)) (rho : Op n),
    vec2Mat (productFrom ctx (steps.map (OSStep.proto dt)) acc * mat2Vec rho) =
      steps.foldl (fun (r : Op n) (s : OSStep n) =>
        vec2Mat (exp (((dt * s.ratio / s.samples : ℝ) : ℂ) • generator s.H (ctx ++ s.D)) * mat2Vec r)) (vec2Mat (acc * mat2Vec rho)) := by
  induction steps with
  | nil => intro acc rho; rfl
  | cons s steps ih =>
    intro acc rho
    rw [List.map_cons, productFrom, ih, List.foldl_cons, C39_mat2Vec_vec2Mat, OSStep.proto, propagator, Matrix.mul_assoc]

/-- **C09**, exactly, for open protocols: the steps act once each, in order, for the time `dt*ratio/samples`, each with its own dissipators
and those of the protocol (with twice their rates, see C53); no samples are recorded. -/
theorem C09_open_exact (dt : ℝ) (D : List (Op n × ℝ)) (steps : List (OSStep n)) (rho : Op n) :
    openTimeStep dt D steps rho = some (steps.foldl (fun (r : Op n) (s : OSStep n) =>
      vec2Mat (exp (((dt * s.ratio / s.samples : ℝ) : ℂ) • generator s.H (D.map (fun x => (x.1, 2 * x.2)) ++ s.D)) * mat2Vec r)) rho, []) := by
  unfold openTimeStep
  rw [C53_own_rates_doubled]
  simp only [Proto.scale, propagator, Option.map_some, List.nil_append]
  rw [product_steps, Matrix.one_mul, C39_vec2Mat_mat2Vec]

/-- **C09** (negation) so more than one sample changes the evolution of every decaying qubit. -/
theorem C09_open_changes (g dt : ℝ) (h : g * dt ≠ 0) (k : ℕ) (hk : 1 < k) :
    openTimeStep dt [] (allSamples k [⟨[(sigmam, g)], 0, 1, 1⟩]) (!![1, 0; 0, 0] : Op 2) ≠
      openTimeStep dt [] (allSamples 1 [⟨[(sigmam, g)], 0, 1, 1⟩]) (!![1, 0; 0, 0] : Op 2) := by
  intro e
  obtain ⟨r1, a1, b1⟩ := C09_open_decay g dt k
  obtain ⟨r2, a2, b2⟩ := C09_open_decay g dt 1
  rw [a1, a2] at e
  have e := (Prod.mk.inj (Option.some.inj e)).1
  rw [e, b2] at b1
  have h1 : Real.exp (-(dt * g)) = Real.exp (-(dt / k * g)) := by
    have : (Real.exp (-(dt * g)) : ℂ) = (Real.exp (-(dt / k * g)) : ℂ) := by
      push_cast at b1 ⊢
      simpa using b1
    exact_mod_cast this
  have h2 := Real.exp_injective h1
  have hk0 : (k : ℝ) ≠ 0 := by positivity
  have h3 : dt * g * (k - 1) = 0 := by
    have : dt * g = dt / k * g := by linarith
    field_simp at this
    linarith
  rcases mul_eq_zero.mp h3 with h4 | h4
  · exact h (by linarith)
  · have : (1 : ℝ) < k := by exact_mod_cast hk
    linarith

/-- Three samples in a step of length one with rate two: a third of the decay. -/
example : ∃ rho, openTimeStep 1 [] (allSamples 3 [⟨[(sigmam, 2)], 0, 1, 1⟩]) (!![1, 0; 0, 0] : Op 2) = some (rho, []) ∧
    rho 0 0 = Complex.exp (-((1 / (3 : ℕ) : ℝ) * (2 : ℝ))) := C09_open_decay 2 1 3

end Verif.Open
