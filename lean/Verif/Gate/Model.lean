import Verif.Toolbox.RotationProps

/-!
# Model of gate objects: `SpinRotation` and `xGate`

`QGates.py:30-125`, `QPro.py:195-266, 411-454`, `QSimBase.py:39-47`.  The matrices have run-time sizes.  Simplifications: rounding to 15
digits in the rotation matrices is left out; axes and implementations are strings, angles and phases real numbers; the gate has no
updates, no time-dependent sweeps and is not `fixed` (C20, C83, C19); a dissipator of the gate, or of a protocol around it, is only
seen in that the gate is open.
-/
namespace Verif.Gate
open Verif.Toolbox

/-- What is raised. -/
inductive Err where
  | index | type | value | attr | unbound
  deriving DecidableEq

/-- A square matrix with its size. -/
abbrev Mx := Σ n : ℕ, Op n

/-- `@`; `none` when the sizes do not fit (`ValueError`). -/
noncomputable def mulM (A B : Mx) : Option Mx :=
  if h : B.1 = A.1 then some ⟨A.1, A.2 * Matrix.reindex (finCongr h) (finCongr h) B.2⟩ else none

/-- `_dimsBefore`, `dimension` and `_dimsAfter` of a system. -/
structure Sys where
  before : ℕ
  dim    : ℕ
  after  : ℕ
  deriving DecidableEq

/-- `_totalDim` (`QSystem.py:219-225`). -/
abbrev Sys.total (s : Sys) : ℕ := s.before * s.dim * s.after

/-- The attributes of a gate: `angle`, `rotationAxis`, `_rotationOp`, `phase`, `implementation`, the systems by their names, `_totalDim`
of its `superSys` (`none`: no `superSys`), and whether it is open (`_isOpen`). -/
structure Params where
  angle   : Option ℝ
  axis    : Option String
  oper    : Option Axis
  phase   : ℝ
  impl    : Option String
  systems : List (ℕ × Sys)
  around  : Option ℕ
  opened  : Bool

/-- A gate: the attributes, `__paramUpdated` and `__matrix`. -/
structure G extends Params where
  updated : Bool
  matrix  : Option Mx

/-- The factor of one system in `_rotMat` (`QGates.py:76-81`). -/
noncomputable def spinFactor (a : Axis) (phase angle : ℝ) (s : Sys) : Mx :=
  ⟨s.total, unitaryOp (((phase * angle : ℝ) : ℂ) • emb ⟨s.before, s.dim, s.after, rfl⟩ (spinOfDim a s.dim)) 1⟩

/-- The factor of one system in `instantFlip` (`QGates.py:110-112`): `2 x 2`, whatever the dimension of the system. -/
noncomputable def flipFactor (a : Axis) (angle : ℝ) (s : Sys) : Mx :=
  ⟨s.before * 2 * s.after, emb ⟨s.before, 2, s.after, rfl⟩ (axisRotation a angle)⟩

/-- The loop over the other systems (`QGates.py:78-81, 111-112`). -/
noncomputable def factors (f : Sys → Mx) : Mx → List Sys → Except Err Mx
  | U, [] => .ok U
  | U, s :: r => match mulM (f s) U with | none => .error .value | some V => factors f V r

/-- `_rotMat` without the last step (`QGates.py:72-81`). -/
noncomputable def rotMat (p : Params) : Except Err Mx :=
  match p.systems.map Prod.snd with
  | [] => .error .index
  | s :: r =>
    match p.oper, p.angle with
    | some a, some angle => factors (spinFactor a p.phase angle) (spinFactor a p.phase angle s) r
    | _, _ => .error .type

/-- `instantFlip` without the last step (`QGates.py:101-112`). -/
noncomputable def instantFlip (p : Params) : Except Err Mx :=
  match p.systems.map Prod.snd with
  | [] => match p.axis with
    | none => .error .attr
    | some x =>
      match parseAxis x, p.angle with
      | none, _ => .error .unbound
      | some _, none => .error .type
      | some _, some _ => .error .index
  | s :: r =>
    match p.axis with
    | none => .error .attr
    | some x =>
      match parseAxis x, p.angle with
      | none, _ => .error .unbound
      | some _, none => .error .type
      | some a, some angle => factors (flipFactor a angle) (flipFactor a angle s) r

/-- `implementation.lower() in ('instant', 'flip')` (`QGates.py:120`). -/
def isInstant (s : String) : Bool := s.toLower ∈ ["instant", "flip"]

/-- `_createUnitary`: `_rotMat` for a `SpinRotation` (whatever its implementation), `_gateImplements` for an `xGate`
(`QGates.py:117-125`). -/
noncomputable def create (isX : Bool) (p : Params) : Except Err Mx :=
  if isX then
    match p.impl with
    | none => rotMat p
    | some s => if isInstant s then instantFlip p else .error .unbound
  else rotMat p

/-- The last step of `_rotMat` and `instantFlip` (`QGates.py:82, 113`). -/
noncomputable def finish (opened : Bool) (U : Mx) : Mx := if opened then ⟨U.1 * U.1, openGate U.2⟩ else U

/-- The dimension used in `_identity` (`QPro.py:254-266`). -/
def idDim (p : Params) : Except Err ℕ :=
  match p.around, p.systems with
  | some n, _ => .ok n
  | none, [] => .error .index
  | none, s :: _ => .ok s.2.total

/-- `unitary()` and `getUnitary()` of a gate (`QPro.py:195-252`).  The matrix is stored, and the mark taken away, inside `_createUnitary`,
before the product with the identity. -/
noncomputable def ask (isX : Bool) (g : G) : Except Err Mx × G :=
  if g.updated then compute g else match g.matrix with | some U => (.ok U, g) | none => compute g
where
  /-- `_defGetUnitary`, when it has to create. -/
  compute (g : G) : Except Err Mx × G :=
    match idDim g.toParams with
    | .error e => (.error e, g)
    | .ok n =>
      match create isX g.toParams with
      | .error e => (.error e, g)
      | .ok U =>
        let g₁ := { g with updated := false, matrix := some (finish g.opened U) }
        match mulM (finish g.opened U) ⟨if g.opened then n * n else n, 1⟩ with
        | none => (.error .value, g₁)
        | some V => (.ok V, { g₁ with matrix := some V })

/-- What is done with a gate and its systems. -/
inductive Cmd where
  /-- `gate.angle = θ` -/
  | angle (θ : ℝ)
  /-- `gate.rotationAxis = s` -/
  | axis (s : String)
  /-- `gate.phase = φ` -/
  | phase (φ : ℝ)
  /-- `gate.implementation = s` -/
  | impl (s : Option String)
  /-- `gate.addSubSys(system)` -/
  | add (i : ℕ) (s : Sys)
  /-- `gate.removeSubSys(system)` -/
  | remove (i : ℕ)
  /-- `gate.superSys = system` -/
  | around (n : ℕ)
  /-- the gate, or a protocol around it, is given a dissipator -/
  | opens
  /-- the dimension or the place of a system changes -/
  | place (i : ℕ) (s : Sys)
  /-- another parameter of a system of the gate is assigned -/
  | touch
  /-- `delMatrices` -/
  | drop
  /-- `gate.unitary()` -/
  | ask

open Classical in
/-- `setAttr` (`QSimBase.py:39-47`): a changed value marks. -/
noncomputable def marked {α : Type} (old new : α) (b : Bool) : Bool := if new = old then b else true

/-- Add or replace under a name. -/
def putSys (l : List (ℕ × Sys)) (i : ℕ) (s : Sys) : List (ℕ × Sys) :=
  if l.any (fun x => x.1 = i) then l.map fun x => if x.1 = i then (i, s) else x else l ++ [(i, s)]

/-- One command. -/
noncomputable def step (isX : Bool) (g : G) : Cmd → G
  | .angle θ => { g with angle := some θ, updated := marked g.angle (some θ) g.updated }
  | .axis s =>
    { g with axis := some s, updated := marked g.axis (some s) g.updated, oper := (parseAxis s).or g.oper }
  | .phase φ => { g with phase := φ }
  | .impl s => { g with impl := s }
  | .add i s => { g with systems := putSys g.systems i s }
  | .remove i => { g with systems := g.systems.filter fun x => x.1 ≠ i }
  | .around n => { g with around := some n }
  | .opens => { g with opened := true }
  | .place i s =>
    { g with systems := g.systems.map (fun x => if x.1 = i then (i, s) else x),
             updated := g.updated || g.systems.any fun x => decide (x.1 = i ∧ x.2 ≠ s) }
  | .touch => { g with updated := true }
  | .drop => { g with matrix := none }
  | .ask => (ask isX g).2

/-- All commands in order. -/
noncomputable def run (isX : Bool) : G → List Cmd → G
  | g, [] => g
  | g, c :: r => run isX (step isX g c) r

/-- A new gate (`QGates.py:39-46, 95-99`). -/
def new (isX : Bool) : G :=
  { angle := none, axis := if isX then some "x" else none, oper := if isX then some .x else none, phase := 1, impl := none,
    systems := [], around := none, opened := false, updated := true, matrix := none }

end Verif.Gate
