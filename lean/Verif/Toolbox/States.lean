import Verif.Toolbox.Operators
import Mathlib.LinearAlgebra.Matrix.Trace
import Mathlib.LinearAlgebra.Matrix.Charpoly.Basic
import Mathlib.Analysis.SpecialFunctions.Complex.Log

/-!
# Model of `states.py`, `functions.py`, `IPR.py` and of the inner/outer products of `linearAlgebra.py`
-/
namespace Verif.Toolbox
open Matrix

/-- `innerProd` (`linearAlgebra.py:88-132`): `(hc(ket2) @ ket1).diagonal().sum()`. -/
def innerProd {d : ℕ} (ket1 : Ket d) (ket2 : Option (Ket d) := none) : ℂ :=
  (hc (ket2.getD ket1) * ket1).trace

/-- `norm` (`linearAlgebra.py:134-169`): `np.sqrt(innerProd(ket))`.  Simplification: the inner product of a ket with itself is a
non-negative real number, the square root is taken of its real part. -/
noncomputable def ketNorm {d : ℕ} (ket : Ket d) : ℝ := Real.sqrt (innerProd ket).re

/-- `outerProd` (`linearAlgebra.py:171-219`): `ket1 @ hc(ket2)`. -/
def outerProd {d : ℕ} (ket1 : Ket d) (ket2 : Option (Ket d) := none) : Op d := ket1 * hc (ket2.getD ket1)

/-- `normalise` (`states.py:428-470`) of a ket: `shape[0] != shape[1]` is `d != 1`; a `1 x 1` ket is divided by its trace.
`none`: division by zero (NaN entries and a warning in NumPy). -/
noncomputable def normaliseKet {d : ℕ} (k : Ket d) : Option (Ket d) :=
  if d ≠ 1 then
    if ketNorm k = 0 then none else some ((1 / (ketNorm k : ℂ)) • k)
  else
    let tr := ∑ i, k i 0
    if tr = 0 then none else some ((1 / tr) • k)

/-- `normalise` of a square matrix (`states.py:466-470`). -/
noncomputable def normaliseMat {d : ℕ} (A : Op d) : Option (Op d) :=
  if A.trace = 0 then none else some ((1 / A.trace) • A)

/-- `weightedSum` (`states.py:236-256`) with weights: `sum(weight*val for weight, val in zip(weights, summands))`; the sum of
nothing is the integer `0`, which is not a matrix (`none`). -/
def weightedSum {d m : ℕ} (summands : List (Matrix (Fin d) (Fin m) ℂ)) (weights : List ℂ) :
    Option (Matrix (Fin d) (Fin m) ℂ) :=
  match weights.zip summands with
  | [] => none
  | l => some ((l.map fun p => p.1 • p.2).sum)

/-- The `excitations` argument of `superPos`: a dictionary, an integer, an iterable of integers, anything else. -/
inductive Exc where
  | dict (items : List (ℤ × ℂ))
  | int (n : ℤ)
  | list (ns : List ℤ)
  | other

/-- `np.sqrt` of a population; negative or complex values give NaN or are outside the documented range (`none`). -/
noncomputable def popSqrt (v : ℂ) : Option ℂ := if v.im = 0 ∧ 0 ≤ v.re then some ((Real.sqrt v.re : ℝ) : ℂ) else none

/-- `{k: 1 for k in excitations}`: later duplicates do not change the key order. -/
def dedupKeys : List ℤ → List ℤ
  | [] => []
  | k :: ks => k :: (dedupKeys ks).filter (· ≠ k)

/-- The dictionary `sts` of `superPos` (`states.py:314-324`). -/
noncomputable def superPosItems (e : Exc) (populations : Bool) : Option (List (ℤ × ℂ)) :=
  match e with
  | .dict items => if populations then items.mapM fun p => (popSqrt p.2).map fun c => (p.1, c) else some items
  | .int n => some [(n, 1)]
  | .list ns => some ((dedupKeys ns).map fun k => (k, 1))
  | .other => none

/-- `basis(dimension, excite)` (`states.py:81-116`); an index outside the shape raises ValueError in SciPy. -/
def basisOpt (d : ℕ) (k : ℤ) : Option (Ket d) := if 0 ≤ k ∧ k < d then some (basis d k.toNat) else none

/-- `superPos` (`states.py:258-329`). -/
noncomputable def superPos (d : ℕ) (e : Exc) (populations : Bool := true) : Option (Ket d) := do
  let sts ← superPosItems e populations
  let bs ← sts.mapM fun p => basisOpt d p.1
  let s ← weightedSum bs (sts.map Prod.snd)
  normaliseKet s

/-- A state argument: a ket of shape `(d, 1)` or a `d x d` matrix. -/
inductive QState (d : ℕ) where
  | ket (k : Ket d)
  | mat (rho : Op d)

/-- `if state.shape[0] != state.shape[1]: state = densityMatrix(state)` (`functions.py:125-126`, `181-185`,
`states.py:331-378`); a `1 x 1` ket is square and stays as it is. -/
def QState.asMat {d : ℕ} : QState d → Op d
  | .ket k => if d ≠ 1 then outerProd k else Matrix.of fun i _ => k i 0
  | .mat rho => rho

/-- `state.shape[0] != state.shape[1]`. -/
def QState.nonSquare {d : ℕ} : QState d → Bool
  | .ket _ => decide (d ≠ 1)
  | .mat _ => false

/-- `trace(operator @ state)` in `expectation`. -/
def expectationRaw {d : ℕ} (op : Op d) (s : QState d) : ℂ := (op * s.asMat).trace

open Classical in
/-- `expectation` (`functions.py:72-128`): the real part is returned when the imaginary part rounds to zero at 12 decimals
(`|im| <= 0.5e-12`). -/
noncomputable def expectation {d : ℕ} (op : Op d) (s : QState d) : ℂ :=
  let expc := expectationRaw op s
  if |expc.im| ≤ (1 / 2) / 10 ^ 12 then (expc.re : ℂ) else expc

/-- `fidelityPure` (`functions.py:130-186`).  Simplification: `np.round(_, 20)` is left out. -/
noncomputable def fidelityPure {d : ℕ} (s1 s2 : QState d) : ℝ :=
  match s1, s2 with
  | .ket k1, .ket k2 =>
    if d ≠ 1 then ‖innerProd k1 (some k2)‖ ^ 2 else ((s1.asMat * s2.asMat).trace).re
  | s1, s2 => ((s1.asMat * s2.asMat).trace).re

/-- `purity` (`states.py:638-652`). -/
def purity {d : ℕ} (rho : Op d) : ℂ := (rho * rho).trace

/-- `entropy` (`functions.py:201-267`): eigenvalues (roots of the characteristic polynomial with multiplicity) different from
zero, `real(-sum(v * log v))`, natural logarithm or base 2. -/
noncomputable def entropy {d : ℕ} (s : QState d) (base2 : Bool := false) : ℝ :=
  let vals := s.asMat.charpoly.roots
  let nzvals := vals.filter (· ≠ 0)
  let log := fun v : ℂ => if base2 then Complex.log v / Complex.log 2 else Complex.log v
  (-(nzvals.map fun v => v * log v).sum).re

/-- `iprKet` (`IPR.py:35-68`): `1/sum(fidelityPure(b, ket)**2)`. -/
noncomputable def iprKet {d : ℕ} (bas : List (Ket d)) (k : Ket d) : ℝ :=
  1 / (bas.map fun b => fidelityPure (.ket b) (.ket k) ^ 2).sum

/-- `iprKetNB` (`IPR.py:70-105`): `1/sum(|c|^4)`. -/
noncomputable def iprKetNB {d : ℕ} (k : Ket d) : ℝ := 1 / ∑ i, ‖k i 0‖ ^ 4

/-- `completeBasis` (`states.py:118-145`): all basis kets. -/
def completeBasis (d : ℕ) : List (Ket d) := (List.range d).map fun n => basis d n

/-- `standardDev` (`functions.py:450-453`) squared: the variance under the square root. -/
noncomputable def variance {d : ℕ} (op : Op d) (s : QState d) : ℂ := expectation (op * op) s - expectation op s ^ 2

/-- `BellStates` (`states.py:581-636`) without the factor for unknown names (then the integer `0` is returned). -/
noncomputable def bellState (bs : String) : Option (Ket 4) :=
  let n : ℂ := 1 / ((Real.sqrt 2 : ℝ) : ℂ)
  if bs ∈ ["Phi+", "00"] then some (n • (!![1; 0; 0; 1] : Ket 4))
  else if bs ∈ ["Phi-", "01"] then some (n • (!![1; 0; 0; -1] : Ket 4))
  else if bs ∈ ["Psi+", "10"] then some (n • (!![0; 1; 1; 0] : Ket 4))
  else if bs ∈ ["Psi-", "11"] then some (n • (!![0; 1; -1; 0] : Ket 4))
  else none

end Verif.Toolbox
