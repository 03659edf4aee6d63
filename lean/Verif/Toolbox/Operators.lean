import Verif.Toolbox.Evolution
import Mathlib.Analysis.SpecialFunctions.Sqrt
import Mathlib.Data.Rat.Floor

/-!
# Model of `QuantumToolbox/operators.py`

Matrices over `ℂ`; `np.sqrt` is the real square root (no rounding).  The sparse/dense flag is not modelled.
-/
namespace Verif.Toolbox
open Matrix

/-- `sp.csc_matrix((data, (rows, columns)), shape=(d, d))` with `len` data, rows `ro, ro+1, ...` and columns
`co, co+1, ...` (all uses in `operators.py` have this form); coinciding positions are added up. -/
def cscMatrix (d len : ℕ) (data : ℕ → ℂ) (ro co : ℕ) : Op d :=
  Matrix.of fun i j => ∑ k ∈ Finset.range len, if k + ro = (i : ℕ) ∧ k + co = (j : ℕ) then data k else 0

/-- `number` (`operators.py:97-130`): `range(d)` on the diagonal. -/
def number (d : ℕ) : Op d := cscMatrix d d (fun i => (i : ℂ)) 0 0

/-- `destroy` (`operators.py:132-164`): `sqrt(i+1)` at rows `0..d-2`, columns `1..d-1`. -/
noncomputable def destroy (d : ℕ) : Op d := cscMatrix d (d - 1) (fun i => ((Real.sqrt ((i : ℝ) + 1) : ℝ) : ℂ)) 0 1

/-- `create` (`operators.py:166-198`): `sqrt(i+1)` at rows `1..d-1`, columns `0..d-2`. -/
noncomputable def create (d : ℕ) : Op d := cscMatrix d (d - 1) (fun i => ((Real.sqrt ((i : ℝ) + 1) : ℝ) : ℂ)) 1 0

/-- `sigmaz` (`operators.py:231-260`). -/
def sigmaz : Op 2 := !![1, 0; 0, -1]
/-- `sigmay` (`operators.py:262-291`). -/
noncomputable def sigmay : Op 2 := !![0, -Complex.I; Complex.I, 0]
/-- `sigmax` (`operators.py:293-322`). -/
def sigmax : Op 2 := !![0, 1; 1, 0]
/-- `sigmap` (`operators.py:324-353`): entry `(0, 1)`. -/
def sigmap : Op 2 := !![0, 1; 0, 0]
/-- `sigmam` (`operators.py:355-384`): entry `(1, 0)`. -/
def sigmam : Op 2 := !![0, 0; 1, 0]

/-- The first lines of `Jp`, `Jm`, `Jz` (`operators.py:437-440`, `499-502`, `678-681`): the pair `(d, j)` used for the
matrix.  `int` of a non-negative number is the floor.  `round(x, 1)` is only applied to multiples of one half, where it is the
identity. -/
def spinArgs (j : ℚ) (isDim : Bool) : ℕ × ℚ :=
  let d := ⌊2 * j + 1⌋₊
  if isDim then
    let d := ⌊j⌋₊
    (d, ((d : ℚ) - 1) / 2)
  else (d, j)

/-- The `data` list of `Jp`/`Jm` (`operators.py:441-442`, `503-504`). -/
noncomputable def ladderData (j : ℚ) (i : ℕ) : ℂ :=
  let m : ℝ := (j : ℝ) - i
  ((Real.sqrt (((j : ℝ) + m) * ((j : ℝ) - m + 1)) : ℝ) : ℂ)

/-- `Jp` (`operators.py:386-446`) on the `(d, j)` of `spinArgs`. -/
noncomputable def Jp (j : ℚ) (isDim : Bool := false) : Op (spinArgs j isDim).1 :=
  let (d, j) := spinArgs j isDim
  cscMatrix d (d - 1) (ladderData j) 0 1

/-- `Jm` (`operators.py:448-508`). -/
noncomputable def Jm (j : ℚ) (isDim : Bool := false) : Op (spinArgs j isDim).1 :=
  let (d, j) := spinArgs j isDim
  cscMatrix d (d - 1) (ladderData j) 1 0

/-- `Jz` (`operators.py:632-689`): `j - i` on the diagonal. -/
noncomputable def Jz (j : ℚ) (isDim : Bool := false) : Op (spinArgs j isDim).1 :=
  let (d, j) := spinArgs j isDim
  cscMatrix d d (fun i => ((j : ℚ) : ℂ) - (i : ℂ)) 0 0

/-- `Jx` (`operators.py:510-569`). -/
noncomputable def Jx (j : ℚ) (isDim : Bool := false) : Op (spinArgs j isDim).1 :=
  (0.5 : ℂ) • (Jp j isDim + Jm j isDim)

/-- `Jy` (`operators.py:571-630`): `(1/(2j))*(Jp - Jm)`; `2j` is the imaginary literal. -/
noncomputable def Jy (j : ℚ) (isDim : Bool := false) : Op (spinArgs j isDim).1 :=
  (1 / (2 * Complex.I) : ℂ) • (Jp j isDim - Jm j isDim)

/-- `Js` (`operators.py:691-744`). -/
noncomputable def Js (j : ℚ) (isDim : Bool := false) : Op (spinArgs j isDim).1 :=
  Jx j isDim * Jx j isDim + Jy j isDim * Jy j isDim + Jz j isDim * Jz j isDim

/-- `parityEXP` (`operators.py:842-884`): `expm(i pi H)`. -/
noncomputable def parityEXP {d : ℕ} (H : Op d) : Op d := NormedSpace.exp ((Complex.I * (Real.pi : ℂ)) • H)

/-- `paritySUM` (`operators.py:886-926`): `1, -1, 1, ...` on the diagonal (`a[::2] = 1; a[1::2] = -1`). -/
def paritySUM (d : ℕ) : Op d := cscMatrix d d (fun i => if i % 2 = 0 then 1 else -1) 0 0

/-- `displacement` (`operators.py:746-796`): `expm(alpha a^dag - conj(alpha) a)`. -/
noncomputable def displacement (alpha : ℂ) (d : ℕ) : Op d :=
  NormedSpace.exp (alpha • create d - (starRingEnd ℂ) alpha • destroy d)

/-- `squeeze` (`operators.py:798-840`): `expm(0.5 (-alpha a^dag a^dag + conj(alpha) a a))`. -/
noncomputable def squeeze (alpha : ℂ) (d : ℕ) : Op d :=
  NormedSpace.exp ((0.5 : ℂ) • (-(alpha • (create d * create d)) + (starRingEnd ℂ) alpha • (destroy d * destroy d)))

/-- `basis` (`states.py:81-116`): the ket with a one at position `n`.  Precondition `n < d`: otherwise SciPy
raises ValueError (here: the zero ket). -/
def basis (d n : ℕ) : Ket d := Matrix.of fun i _ => if (i : ℕ) = n then 1 else 0

end Verif.Toolbox
