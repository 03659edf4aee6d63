import Verif.Toolbox.ExpLemmas

/-!
# Model of `QuantumToolbox/evolution.py`

Matrices over `ℂ`, times and rates in `ℝ`; `expm` is Mathlib's `NormedSpace.exp`.
-/
namespace Verif.Toolbox
open Matrix NormedSpace

/-- `Unitary` (`evolution.py:59-91`): `expm(-1j * Hamiltonian * timeStep)`. -/
noncomputable def unitaryOp {n : ℕ} (H : Op n) (t : ℝ) : Op n := exp ((t : ℂ) • ((-Complex.I) • H))

/-- `dissipator` (`evolution.py:228-276`); the identity argument is always the identity of the right size. -/
noncomputable def dissipator {n : ℕ} (A : Op n) (B : Option (Op n) := none) (double : Bool := false) : Op (n * n) :=
  let B := B.getD (hc A)
  let number := B * A
  let part1 := prepostSO A (some B)
  let part2 := preSO number
  let part3 := postSO number
  (1 + (if double then 1 else 0) : ℂ) • (part1 - ((1 / 2 : ℂ) • (part2 + part3)))

/-- An element of `collapseOperators` (`evolution.py:148-157`): an operator on the Hilbert space, or a ready-made
superoperator.  Simplifications: the shape decides which one it is (for dimension 1 both coincide in shape and the code takes
the first branch); other shapes raise and are left out; a tuple has no `shape`, so the tuple branch (154-155) is not
reachable. -/
inductive Collapse (n : ℕ) where
  | op    (A : Op n)
  | super (L : Op (n * n))

/-- The superoperator of one collapse operator (`evolution.py:150-153`). -/
noncomputable def collapsePart {n : ℕ} (double : Bool) : Collapse n → Op (n * n)
  | .op A => dissipator A none double
  | .super L => L

/-- The loop over the collapse operators (`evolution.py:149-162`) from index `idx`; `none` is the `IndexError` of
`decayRates[idx]`. -/
noncomputable def addCollapse {n : ℕ} (double : Bool) (rates : Option (List ℝ)) :
    ℕ → List (Collapse n) → Op (n * n) → Option (Op (n * n))
  | _, [], L => some L
  | idx, c :: cs, L =>
    match rates with
    | none => addCollapse double rates (idx + 1) cs (L + collapsePart double c)
    | some rs =>
      if rs.length ≠ 0 then
        match rs[idx]? with
        | some r => addCollapse double rates (idx + 1) cs (L + (r : ℂ) • collapsePart double c)
        | none => none
      else addCollapse double rates (idx + 1) cs L

/-- The Hamiltonian part (`evolution.py:141-146`). -/
noncomputable def hamPart {n : ℕ} : Option (Op n) → Op (n * n)
  | none => 0
  | some H => 0 + (-Complex.I) • (preSO H - postSO H)

/-- `Liouvillian` (`evolution.py:93-163`).  `none` is an exception: the unbound dimension when neither argument is given, or
the `IndexError` of the rates.  Simplification: with `Hamiltonian = None` the dimension is that of the first collapse
operator, which is the type parameter here (an empty list then raises, also `none`). -/
noncomputable def Liouvillian {n : ℕ} (H : Option (Op n)) (cs : Option (List (Collapse n))) (rates : Option (List ℝ))
    (double : Bool := false) : Option (Op (n * n)) :=
  match H, cs with
  | none, none => none
  | none, some [] => none
  | H, none => some (hamPart H)
  | H, some cs => addCollapse double rates 0 cs (hamPart H)

/-- The result of `LiouvillianExp`: a unitary on the Hilbert space or a superoperator. -/
inductive Propagator (n : ℕ) where
  | unitary (U : Op n)
  | super (L : Op (n * n))

/-- `LiouvillianExp` (`evolution.py:165-226`); `none` is an exception. -/
noncomputable def LiouvillianExp {n : ℕ} (H : Option (Op n)) (t : ℝ) (cs : Option (List (Collapse n)))
    (rates : Option (List ℝ)) (doExp : Bool := true) (double : Bool := false) : Option (Propagator n) :=
  match cs with
  | some cs =>
    match Liouvillian H (some cs) rates double with
    | none => none
    | some L => some (.super (if doExp then exp ((t : ℂ) • L) else L))
  | none =>
    match H with
    | none => none
    | some H => some (.unitary (unitaryOp H t))

/-- `evolveOpen` (`evolution.py:377-398`) with a density matrix as initial state and `delStates=False`, for `steps =
int(totalTime/timeStep)`: the list of density matrices. -/
noncomputable def evolveOpen {n : ℕ} (L : Op (n * n)) : ℕ → Ket (n * n) → List (Op n)
  | 0, _ => []
  | k + 1, v => vec2Mat (L * v) :: evolveOpen L k (L * v)

end Verif.Toolbox
