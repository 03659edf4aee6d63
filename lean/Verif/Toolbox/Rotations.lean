import Verif.Toolbox.Spin
import Verif.Toolbox.Embed
import Mathlib.Analysis.SpecialFunctions.Trigonometric.Basic
import Mathlib.Analysis.SpecialFunctions.Exponential

/-!
# Model of `QuantumToolbox/spinRotations.py` and of the gates in `classes/QGates.py`
-/
namespace Verif.Toolbox
open Matrix

/-- The rotation axes accepted by the code. -/
inductive Axis where
  | x | y | z
deriving DecidableEq, Repr

/-- `xyz.lower() == 'x'` ... (`spinRotations.py:142-151`, `QGates.py:62-70`); `none` is the ValueError.  The
strings whose lower-case form is `'x'` are `'x'` and `'X'`. -/
def parseAxis (s : String) : Option Axis :=
  if s ∈ ["x", "X"] then some .x
  else if s ∈ ["y", "Y"] then some .y
  else if s ∈ ["z", "Z"] then some .z
  else none

/-- The Pauli matrix used for an axis. -/
noncomputable def pauli : Axis → Op 2
  | .x => sigmax
  | .y => sigmay
  | .z => sigmaz

/-- `xRotation`, `yRotation`, `zRotation` (`spinRotations.py:49-119`): `cos(angle/2) 1 - i sin(angle/2) sigma`.
Simplification: `round(_, 15)` is left out. -/
noncomputable def axisRotation (a : Axis) (angle : ℝ) : Op 2 :=
  let angle := angle / 2
  ((Real.cos angle : ℝ) : ℂ) • (1 : Op 2) - (Complex.I * ((Real.sin angle : ℝ) : ℂ)) • pauli a

/-- `qubRotation` (`spinRotations.py:121-153`). -/
noncomputable def qubRotation (xyz : String) (angle : ℝ) : Option (Op 2) :=
  (parseAxis xyz).map fun a => axisRotation a angle

/-- The spin operator used for an axis (`spinRotations.py:182-189`, `QGates.py:62-70`). -/
noncomputable def spinAxis (a : Axis) (j : ℚ) (isDim : Bool) : Op (spinArgs j isDim).1 :=
  match a with
  | .x => Jx j isDim
  | .y => Jy j isDim
  | .z => Jz j isDim

/-- `spinRotation` (`spinRotations.py:155-192`): `Unitary(angle*J)` (time step 1). -/
noncomputable def spinRotation (xyz : String) (angle : ℝ) (j : ℚ) (isDim : Bool := false) :
    Option (Op (spinArgs j isDim).1) :=
  (parseAxis xyz).map fun a => unitaryOp ((angle : ℂ) • spinAxis a j isDim) 1

theorem spinArgs_dim (d : ℕ) : (spinArgs d true).1 = d := by simp [spinArgs]

/-- `rotOp(sys.dimension, isDim=True)` with its type brought to the dimension of the system. -/
noncomputable def spinOfDim (a : Axis) (d : ℕ) : Op d :=
  Matrix.reindex (finCongr (spinArgs_dim d)) (finCongr (spinArgs_dim d)) (spinAxis a d true)

/-- `SpinRotation._rotMat` (`QGates.py:72-84`) for a closed system: the rotations of all systems of the gate, in order, each
`Unitary(phase*angle*compositeOp(J))`.  No system: IndexError (`none`).  The cache is modelled elsewhere (`Proto`). -/
noncomputable def rotMat {D : ℕ} (a : Axis) (phase angle : ℝ) : List (Place D) → Option (Op D)
  | [] => none
  | s :: rest =>
    let one := fun (s : Place D) => unitaryOp (((phase * angle : ℝ) : ℂ) • emb s (spinOfDim a s.dim)) 1
    some (rest.foldl (fun (flipUn : Op D) s => one s * flipUn) (one s))

/-- A qubit of the gate: a place of dimension two. -/
structure QPlace (D : ℕ) where
  before : ℕ
  after  : ℕ
  total  : before * 2 * after = D

/-- The place of a qubit. -/
abbrev QPlace.place {D : ℕ} (q : QPlace D) : Place D := ⟨q.before, 2, q.after, q.total⟩

/-- `xGate.instantFlip` (`QGates.py:101-115`) for a closed system; the rotation matrices are `2 x 2`, so the systems have to be
qubits (otherwise the shapes do not fit and `@` raises).  Note: `phase` is not used here. -/
noncomputable def instantFlip {D : ℕ} (a : Axis) (angle : ℝ) : List (QPlace D) → Option (Op D)
  | [] => none
  | s :: rest =>
    let one := fun (s : QPlace D) => emb s.place (axisRotation a angle)
    some (rest.foldl (fun (flipOp : Op D) s => one s * flipOp) (one s))

/-- The last step of `_rotMat` and `instantFlip` (`QGates.py:82`, `113`): in an open system the matrix becomes
`_prepostSO(U)`, called with one argument. -/
noncomputable def openGate {D : ℕ} (U : Op D) : Op (D * D) := prepostSO U

end Verif.Toolbox
