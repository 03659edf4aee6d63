import Verif.Whole.Schroedinger
import Verif.Cache.OpenProps
import Verif.Cache.Open
import Verif.Toolbox.Positivity
import Verif.Toolbox.Mixed

/-!
# C77: a whole run of a simulation of open systems

As `Verif.Whole.Model`, with the branch of `timeEvolBase` for open protocols; all protocols of the simulation are open here.
-/
namespace Verif.Whole
open Verif.Sweep Verif.Cache Matrix

variable {P V M D S : Type} [DecidableEq P] [DecidableEq V]

/-- A simulation of open systems with its sweeps and protocols. -/
structure OCfg (P V M D S : Type) where
  o : OProg P V M D
  /-- the recursion limit -/
  lim : Nat
  sweeps : List (SweepObj V)
  /-- the attributes each sweep assigns -/
  targets : List (List P)
  protos : List Nat
  /-- `vec2Mat(unitary @ mat2Vec(state))` (`modularSweep.py:149-152`) -/
  act : M → S → S
  /-- `densityMatrix(protocol.initialState)` (`modularSweep.py:76-78`) -/
  init : Nat → (P → V) → S
  stepCount : (P → V) → Nat

/-- `timeEvolBase` (`modularSweep.py:147-152`), the branch of open protocols. -/
def advanceO (cfg : OCfg P V M D S) : List Nat → (Nat → S) → St P V M → Option ((Nat → S) × St P V M)
  | [], cur, st => some (cur, st)
  | i :: r, cur, st =>
    match unitaryO cfg.o cfg.lim i st with
    | some (some u, st) => advanceO cfg r (fun j => if j = i then cfg.act u (cur i) else cur j) st
    | _ => none

/-- The loop over the time steps (`modularSweep.py:132-145`). -/
def evolveLoopO (cfg : OCfg P V M D S) : Nat → (Nat → S) → St P V M → Option (List (Nat → S) × St P V M)
  | 0, _, st => some ([], st)
  | n + 1, cur, st =>
    match advanceO cfg cfg.protos cur st with
    | none => none
    | some (cur, st) =>
      match evolveLoopO cfg n cur st with
      | none => none
      | some (l, st) => some (cur :: l, st)

/-- `_runSweepAndPrep` (`modularSweep.py:70-95`). -/
def pointO (cfg : OCfg P V M D S) (fd : FloatDiv) (ind : Nat) (st : St P V M) : Option (List (Nat → S) × St P V M) :=
  match sweepPoint fd (Sweep.prepare {} cfg.sweeps) cfg.sweeps ind with
  | none => none
  | some vals =>
    let st := sweepAssign cfg.o.base cfg.targets vals st
    let cur := fun i => cfg.init i st.σ
    match evolveLoopO cfg (cfg.stepCount st.σ) cur st with
    | none => none
    | some (l, st) => some (cur :: l, st)

/-- The loop of `nonParalEvol` (`modularSweep.py:52-55`). -/
def seqPointsO (cfg : OCfg P V M D S) (fd : FloatDiv) : List Nat → St P V M → Option (List (List (Nat → S)) × St P V M)
  | [], st => some ([], st)
  | ind :: r, st =>
    match pointO cfg fd ind st with
    | none => none
    | some (x, st) =>
      match seqPointsO cfg fd r st with
      | none => none
      | some (xs, st) => some (x :: xs, st)

/-- `protocol.prepare()` of all protocols (`QSim.py:348-349`). -/
def prepareAllO (cfg : OCfg P V M D S) : List Nat → St P V M → Option (St P V M)
  | [], st => some st
  | i :: r, st => match prepareO cfg.o cfg.lim i st with | none => none | some st => prepareAllO cfg r st

/-- `Simulation.run(p=False)` (`QSim.py:330-358`, `modularSweep.py:52-56`). -/
def runSeqO (cfg : OCfg P V M D S) (fd : FloatDiv) (i : Nat) (st : St P V M) : Option (PyVal S × St P V M) :=
  match prepareAllO cfg cfg.protos st with
  | none => none
  | some st =>
    match seqPointsO cfg fd (List.range (Sweep.prepare {} cfg.sweeps).indMultip) st with
    | none => none
    | some (xs, st) =>
      match finalise (Sweep.prepare {} cfg.sweeps).inds (xs.map (stored i)) with
      | none => none
      | some r => some (r, st)

/-- The results of the jobs (`modularSweep.py:59-66`). -/
def jobsO (cfg : OCfg P V M D S) (fd : FloatDiv) (st : St P V M) : List Nat → Option (List (List (Nat → S)))
  | [] => some []
  | ind :: r =>
    match pointO cfg fd ind st with
    | none => none
    | some (x, _) =>
      match jobsO cfg fd st r with
      | none => none
      | some xs => some (x :: xs)

/-- `Simulation.run(p=True)`. -/
def runParO (cfg : OCfg P V M D S) (fd : FloatDiv) (i : Nat) (st : St P V M) : Option (PyVal S × St P V M) :=
  match prepareAllO cfg cfg.protos st with
  | none => none
  | some st =>
    match jobsO cfg fd st (List.range (Sweep.prepare {} cfg.sweeps).indMultip) with
    | none => none
    | some xs =>
      match finalise (Sweep.prepare {} cfg.sweeps).inds (xs.map (stored i)) with
      | none => none
      | some r => some (r, st)

/-! ### Specification -/

/-- The objects before the run: used in any way in which each protocol has one list of dissipators. -/
def OReachable (o : OProg P V M D) (ctx : Nat → List D) (lim : Nat) (ratio : Nat → V) (steps : Nat → List Ref) (st : St P V M) : Prop :=
  ∃ (σ : P → V) (l : List (OCmd P V)), (∀ c ∈ l, c.Fits o ctx) ∧ runO o lim l (init σ ratio steps) = some st

/-- The restrictions of C72 and of C77. -/
structure ONice (cfg : OCfg P V M D S) (ctx : Nat → List D) (steps : Nat → List Ref) (rank : Nat → Nat) : Prop where
  tame : Tame cfg.o.base steps
  covers : OCovers cfg.o steps rank
  one : OneContext cfg.o steps ctx
  top : ∀ i ∈ cfg.protos, ctx i = cfg.o.own i ++ cfg.o.own i
  deep : ∀ i ∈ cfg.protos, rank i + 1 < cfg.lim
  nodup : cfg.protos.Nodup
  targets : cfg.targets.length = cfg.sweeps.length

/-! ### The refinement -/

/-- The corresponding simulation of closed systems. -/
def OCfg.fix (cfg : OCfg P V M D S) (ctx : Nat → List D) : Cfg P V M S where
  pr := cfg.o.fix ctx
  lim := cfg.lim
  sweeps := cfg.sweeps
  targets := cfg.targets
  protos := cfg.protos
  act := cfg.act
  init := cfg.init
  stepCount := cfg.stepCount

theorem ONice.fix {cfg : OCfg P V M D S} {ctx : Nat → List D} {steps : Nat → List Ref} {rank : Nat → Nat} (h : ONice cfg ctx steps rank) :
    Nice (cfg.fix ctx) steps rank := ⟨fix_tame h.tame, fix_covers h.covers, h.deep, h.nodup, h.targets⟩

section
variable {cfg : OCfg P V M D S} {ctx : Nat → List D} {steps : Nat → List Ref} (hc : OneContext cfg.o steps ctx)
  (ht : ∀ i ∈ cfg.protos, ctx i = cfg.o.own i ++ cfg.o.own i)
include hc

theorem advanceO_eq : ∀ (l : List Nat), (∀ i ∈ l, ctx i = cfg.o.own i ++ cfg.o.own i) → ∀ (cur : Nat → S) (st : St P V M), st.steps = steps →
    advanceO cfg l cur st = advance (cfg.fix ctx) l cur st ∧
      ∀ x, advance (cfg.fix ctx) l cur st = some x → x.2.steps = steps := by
  intro l
  induction l with
  | nil =>
    intro _ cur st hs
    exact ⟨rfl, fun x e => by simp only [advance, Option.some.injEq] at e; rw [← e]; exact hs⟩
  | cons i l ih =>
    intro hl cur st hs
    have e0 := unitaryO_eq hc cfg.lim i st hs (hl i (by simp))
    unfold advanceO advance
    rw [e0]
    show _ ∧ ∀ x, (match unitary (cfg.o.fix ctx) cfg.lim i st with
      | some (some u, st) => advance (cfg.fix ctx) l (fun j => if j = i then cfg.act u (cur i) else cur j) st
      | _ => none) = some x → _
    cases e : unitary (cfg.o.fix ctx) cfg.lim i st with
    | none => exact ⟨by rw [show (cfg.fix ctx).pr = cfg.o.fix ctx from rfl, show (cfg.fix ctx).lim = cfg.lim from rfl, e], by simp⟩
    | some y =>
      obtain ⟨m, st1⟩ := y
      have h1 : st1.steps = steps := (unitaryOf_steps (fun i st r st' => getU_steps _ cfg.lim i st r st') _ _ _ _ e).trans hs
      rw [show (cfg.fix ctx).pr = cfg.o.fix ctx from rfl, show (cfg.fix ctx).lim = cfg.lim from rfl, e]
      cases m with
      | none => exact ⟨rfl, by simp⟩
      | some u => exact ih (fun i h => hl i (by simp [h])) _ st1 h1

include ht

theorem evolveLoopO_eq : ∀ (n : Nat) (cur : Nat → S) (st : St P V M), st.steps = steps →
    evolveLoopO cfg n cur st = evolveLoop (cfg.fix ctx) n cur st ∧
      ∀ x, evolveLoop (cfg.fix ctx) n cur st = some x → x.2.steps = steps := by
  intro n
  induction n with
  | zero =>
    intro cur st hs
    exact ⟨rfl, fun x e => by simp only [evolveLoop, Option.some.injEq] at e; rw [← e]; exact hs⟩
  | succ n ih =>
    intro cur st hs
    obtain ⟨e0, e1⟩ := advanceO_eq hc cfg.protos ht cur st hs
    unfold evolveLoopO evolveLoop
    rw [e0, show (cfg.fix ctx).protos = cfg.protos from rfl]
    cases e : advance (cfg.fix ctx) cfg.protos cur st with
    | none => exact ⟨rfl, by simp⟩
    | some y =>
      obtain ⟨cur1, st1⟩ := y
      obtain ⟨e2, e3⟩ := ih cur1 st1 (e1 _ e)
      dsimp only
      rw [e2]
      refine ⟨rfl, fun x ex => ?_⟩
      cases e4 : evolveLoop (cfg.fix ctx) n cur1 st1 with
      | none => rw [e4] at ex; simp at ex
      | some z =>
        rw [e4] at ex
        simp only [Option.some.injEq] at ex
        rw [← ex]
        exact e3 z e4

omit hc ht in
theorem sweepAssign_steps (pr : Prog P V M) : ∀ (ts : List (List P)) (vs : List V) (st : St P V M), (sweepAssign pr ts vs st).steps = st.steps := by
  intro ts
  induction ts with
  | nil => intro vs st; rfl
  | cons t ts ih =>
    intro vs st
    cases vs with
    | nil => rfl
    | cons v vs => rw [sweepAssign, ih, runUpdate_steps]

omit hc ht in
theorem sweepAssign_fix (o : OProg P V M D) (ctx : Nat → List D) : ∀ (ts : List (List P)) (vs : List V) (st : St P V M),
    sweepAssign (o.fix ctx) ts vs st = sweepAssign o.base ts vs st := by
  intro ts
  induction ts with
  | nil => intro vs st; rfl
  | cons t ts ih =>
    intro vs st
    cases vs with
    | nil => rfl
    | cons v vs => rw [sweepAssign, sweepAssign, ih]; rfl

theorem pointO_eq (fd : FloatDiv) (ind : Nat) (st : St P V M) (hs : st.steps = steps) :
    pointO cfg fd ind st = point (cfg.fix ctx) fd ind st ∧ ∀ x, point (cfg.fix ctx) fd ind st = some x → x.2.steps = steps := by
  unfold pointO point
  rw [show (cfg.fix ctx).sweeps = cfg.sweeps from rfl, show (cfg.fix ctx).pr = cfg.o.fix ctx from rfl,
    show (cfg.fix ctx).targets = cfg.targets from rfl, show (cfg.fix ctx).init = cfg.init from rfl,
    show (cfg.fix ctx).stepCount = cfg.stepCount from rfl]
  cases sweepPoint fd (Sweep.prepare {} cfg.sweeps) cfg.sweeps ind with
  | none => exact ⟨rfl, by simp⟩
  | some vals =>
    dsimp only
    rw [sweepAssign_fix]
    have h1 : (sweepAssign cfg.o.base cfg.targets vals st).steps = steps := (sweepAssign_steps _ _ _ _).trans hs
    generalize sweepAssign cfg.o.base cfg.targets vals st = st1 at h1 ⊢
    obtain ⟨e1, e2⟩ := evolveLoopO_eq hc ht (cfg.stepCount st1.σ) (fun i => cfg.init i st1.σ) st1 h1
    rw [e1]
    cases e : evolveLoop (cfg.fix ctx) (cfg.stepCount st1.σ) (fun i => cfg.init i st1.σ) st1 with
    | none => exact ⟨rfl, by simp⟩
    | some y =>
      refine ⟨rfl, fun x ex => ?_⟩
      simp only [Option.some.injEq] at ex
      rw [← ex]
      exact e2 y e

theorem seqPointsO_eq (fd : FloatDiv) : ∀ (l : List Nat) (st : St P V M), st.steps = steps →
    seqPointsO cfg fd l st = seqPoints (cfg.fix ctx) fd l st := by
  intro l
  induction l with
  | nil => intro st _; rfl
  | cons ind l ih =>
    intro st hs
    obtain ⟨e1, e2⟩ := pointO_eq hc ht fd ind st hs
    unfold seqPointsO seqPoints
    rw [e1]
    cases e : point (cfg.fix ctx) fd ind st with
    | none => rfl
    | some y =>
      dsimp only
      rw [ih y.2 (e2 y e)]
      rfl

theorem jobsO_eq (fd : FloatDiv) (st : St P V M) (hs : st.steps = steps) : ∀ (l : List Nat),
    jobsO cfg fd st l = jobs (cfg.fix ctx) fd st l := by
  intro l
  induction l with
  | nil => rfl
  | cons ind l ih =>
    unfold jobsO jobs
    rw [(pointO_eq hc ht fd ind st hs).1, ih]
    rfl

end

theorem prepareO_eq (o : OProg P V M D) (ctx : Nat → List D) (hf : ∀ i, o.base.fixed i = false) : ∀ (lim i : Nat) (st : St P V M),
    prepareO o lim i st = Cache.prepare (o.fix ctx) lim i st := by
  intro lim
  induction lim with
  | zero => intro i st; rfl
  | succ lim ih =>
    intro i st
    have : prepareO o lim = Cache.prepare (o.fix ctx) lim := funext fun i => funext fun st => ih i st
    unfold prepareO Cache.prepare
    rw [this, hf i, show (o.fix ctx).fixed i = false from hf i]
    rfl

theorem prepareAllO_eq {cfg : OCfg P V M D S} {ctx : Nat → List D} (hf : ∀ i, cfg.o.base.fixed i = false) : ∀ (l : List Nat) (st : St P V M),
    prepareAllO cfg l st = prepareAll (cfg.fix ctx) l st := by
  intro l
  induction l with
  | nil => intro st; rfl
  | cons i l ih =>
    intro st
    unfold prepareAllO prepareAll
    rw [prepareO_eq cfg.o ctx hf, show (cfg.fix ctx).pr = cfg.o.fix ctx from rfl, show (cfg.fix ctx).lim = cfg.lim from rfl]
    cases Cache.prepare (cfg.o.fix ctx) cfg.lim i st with
    | none => rfl
    | some st1 => exact ih st1

theorem runO_eqs {cfg : OCfg P V M D S} {ctx : Nat → List D} {steps : Nat → List Ref} {rank : Nat → Nat} (h : ONice cfg ctx steps rank)
    (fd : FloatDiv) (i : Nat) (st : St P V M) (hs : st.steps = steps) :
    runSeqO cfg fd i st = runSeq (cfg.fix ctx) fd i st ∧ runParO cfg fd i st = runPar (cfg.fix ctx) fd i st := by
  have hp := prepareAll_eq h.fix cfg.protos h.deep st hs
  unfold runSeqO runSeq runParO runPar
  rw [prepareAllO_eq (ctx := ctx) h.tame.notFixed, show (cfg.fix ctx).protos = cfg.protos from rfl, hp,
    show (cfg.fix ctx).sweeps = cfg.sweeps from rfl]
  dsimp only
  rw [seqPointsO_eq h.one h.top fd _ st hs, jobsO_eq h.one h.top fd st hs]
  exact ⟨rfl, rfl⟩

/-! ### The theorems -/

/-- C77: a run of a simulation of open systems, with any sweeps and from any state in which the protocols were used with one list of
dissipators each: the states found at index `t` are the initial density matrix and what the propagator made from scratch with the
parameters of the point makes of it, step by step.  With multi-processing the results are the same. -/
theorem C77_run_partial {cfg : OCfg P V M D S} {ctx : Nat → List D} {steps : Nat → List Ref} {rank : Nat → Nat} {ratio : Nat → V}
    (h : ONice cfg ctx steps rank) (hs : SweepsOk cfg.sweeps) (fd : FloatDiv) (st : St P V M)
    (hr : OReachable cfg.o ctx cfg.lim ratio steps st) (i : Nat) (hi : i ∈ cfg.protos) :
    ∃ r st', runSeqO cfg fd i st = some (r, st') ∧ runParO cfg fd i st = some (r, st) ∧
      (∀ q, (∀ t ∈ cfg.targets, q ∉ t) → st'.σ q = st.σ q) ∧
      ∀ t, ValidIdx (axes cfg.sweeps) t → ∃ vals x shown, Delivers cfg.sweeps t vals ∧
        Trajectory cfg.act
          (scratchO cfg.o (overwrite cfg.targets vals st.σ) ratio steps (rank i + 1) i (cfg.o.own i ++ cfg.o.own i))
          (cfg.init i (overwrite cfg.targets vals st.σ)) (cfg.stepCount (overwrite cfg.targets vals st.σ)) x ∧
        nestedGet r t = some shown ∧ Shown (.list (x.map .atom)) shown := by
  obtain ⟨σ, l, hl, e⟩ := hr
  rw [runO_eq h.one l hl _ rfl] at e
  have hp : ∀ c ∈ l.map OCmd.closed, c.Plain := by
    intro c hcm
    obtain ⟨c, -, rfl⟩ := List.mem_map.1 hcm
    cases c <;> exact trivial
  have hr' : Reachable (cfg.fix ctx).pr (cfg.fix ctx).lim ratio steps st := ⟨σ, _, hp, e⟩
  have hst : st.steps = steps := (reachable_good h.fix hr').1.1
  obtain ⟨r, st', e1, -, -, h3, h4⟩ := C72_run_partial h.fix hs fd st hr' i hi
  obtain ⟨r2, st2, e2, e3⟩ := C72_parallel_partial h.fix hs fd st hr' i
  obtain ⟨q1, q2⟩ := runO_eqs h fd i st hst
  rw [e1, Option.some.injEq, Prod.mk.injEq] at e2
  refine ⟨r, st', q1.trans e1, ?_, h3, fun t ht => ?_⟩
  · rw [q2, e3, e2.1]
  · obtain ⟨vals, val, x, shown, h5, h6, h7, h8, h9⟩ := h4 t ht
    refine ⟨vals, x, shown, h5, ?_, h8, h9⟩
    have H : ∀ i, (cfg.o.fix ctx).leaf i = false → ∀ r ∈ (init (overwrite cfg.targets vals st.σ) ratio steps : St P V M).steps i,
        rank r.id < rank i := fun i hl r hr => h.covers.rank i hl r hr
    have hv : val i = scratchO cfg.o (overwrite cfg.targets vals st.σ) ratio steps (rank i + 1) i (cfg.o.own i ++ cfg.o.own i) := by
      rw [fromScratch_unique H (scratchF_fromScratch H) h6 (rank i + 1) i (by omega),
        scratchO_eq h.one (init (overwrite cfg.targets vals st.σ) ratio steps) rfl, h.top i hi]
      rfl
    rw [← hv]
    exact h7

end Verif.Whole
