import Verif.Toolbox.Operators
import Mathlib.Analysis.SpecialFunctions.Trigonometric.Basic

/-!
# Model of `QuantumToolbox/Hamiltonians.py`

The Hamiltonians act on `qubit x cavity`; the analytic propagator `UJC` uses the order `|g,0>, |e,0>, |g,1>, |e,1>, ...`.
-/
namespace Verif.Toolbox
open Matrix

/-- `qubCavFreeHam` (`Hamiltonians.py:53-82`): `(cavFreq * 1 x number, qubFreq * sigmaz x 1)` (without the factor 1/2 of its
docstring). -/
noncomputable def qubCavFreeHam (qubFreq cavFreq : ℝ) (cavDim : ℕ) : Op (2 * cavDim) × Op (2 * cavDim) :=
  ((cavFreq : ℂ) • kron (1 : Op 2) (number cavDim), (qubFreq : ℂ) • kron sigmaz (1 : Op cavDim))

/-- `RabiHam` (`Hamiltonians.py:84-115`). -/
noncomputable def RabiHam (qubFreq cavFreq g : ℝ) (cavDim : ℕ) : Op (2 * cavDim) :=
  let (cavHam, qubHam) := qubCavFreeHam qubFreq cavFreq cavDim
  let couplingRabi := (g : ℂ) • kron sigmax (create cavDim + destroy cavDim)
  cavHam + qubHam + couplingRabi

/-- `JCHam` (`Hamiltonians.py:117-148`). -/
noncomputable def JCHam (qubFreq cavFreq g : ℝ) (cavDim : ℕ) : Op (2 * cavDim) :=
  let (cavHam, qubHam) := qubCavFreeHam qubFreq cavFreq cavDim
  let couplingJC := (g : ℂ) • (kron sigmam (create cavDim) + kron sigmap (destroy cavDim))
  cavHam + qubHam + couplingJC

/-- `aJCHam` (`Hamiltonians.py:150-182`). -/
noncomputable def aJCHam (qubFreq cavFreq g : ℝ) (cavDim : ℕ) : Op (2 * cavDim) :=
  let (cavHam, qubHam) := qubCavFreeHam qubFreq cavFreq cavDim
  let couplingAJC := (g : ℂ) • (kron sigmap (create cavDim) + kron sigmam (destroy cavDim))
  cavHam + qubHam + couplingAJC

/-- `(n*g**2+D**2/4)**0.5` in `UJC`. -/
noncomputable def ujcOmega (D g : ℝ) (n : ℕ) : ℝ := Real.sqrt (n * g ^ 2 + D ^ 2 / 4)

/-- The entries written by `UJC` (`Hamiltonians.py:213-221`), `n` from `1` to `dimC - 1`, later writes last. -/
noncomputable def ujcEntry (wq wc g t : ℝ) (dimC : ℕ) (i j : ℕ) : ℂ :=
  let D := wq - wc
  let ph (n : ℕ) : ℂ := Complex.exp (-Complex.I * wc * ((n : ℂ) - 0.5) * t)
  let Om := ujcOmega D g
  if i = 2 * dimC - 1 ∧ j = 2 * dimC - 1 then
    (Complex.cos (D / 2 * t) - Complex.I * Complex.sin (D / 2 * t)) * Complex.exp (-Complex.I * wc * (dimC - 0.5) * t)
  else if i = 0 ∧ j = 0 then
    (Complex.cos (D / 2 * t) + Complex.I * Complex.sin (D / 2 * t)) * Complex.exp (Complex.I * wc * 0.5 * t)
  else if i % 2 = 0 ∧ i = j then
    let n := i / 2;
    (Complex.cos (Om n * t) + Complex.I / 2 * D * Complex.sin (Om n * t) / Om n) * ph n
  else if i % 2 = 1 ∧ i = j then
    let n := (i + 1) / 2;
    (Complex.cos (Om n * t) - Complex.I / 2 * D * Complex.sin (Om n * t) / Om n) * ph n
  else if i % 2 = 0 ∧ j + 1 = i then
    let n := i / 2;
    -Complex.I * (Real.sqrt n : ℝ) * g * Complex.sin (Om n * t) / Om n * ph n
  else if i % 2 = 1 ∧ i + 1 = j then
    let n := j / 2;
    -Complex.I * (Real.sqrt n : ℝ) * g * Complex.sin (Om n * t) / Om n * ph n
  else 0

/-- `UJC` (`Hamiltonians.py:184-223`).  `none`: `dimC = 0` (IndexError), or a division `0/0` (NaN entries) for a resonant
uncoupled system with at least two cavity levels. -/
noncomputable def UJC (wq wc g t : ℝ) (dimC : ℕ) : Option (Op (2 * dimC)) :=
  open Classical in
  if dimC = 0 then none
  else if 2 ≤ dimC ∧ g = 0 ∧ wq - wc = 0 then none
  else some (Matrix.of fun i j => ujcEntry wq wc g t dimC i j)

end Verif.Toolbox
