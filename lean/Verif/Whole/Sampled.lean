import Verif.Whole.Schroedinger

/-!
# C81: whole runs with samples inside the steps

`Verif.Whole.Model` with the sampling branch of `timeEvolBase` (`modularSweep.py:154-159`) and the decision for it at the beginning of a run
(`modularSweep.py:39-44`).  Simplifications: those of `Verif.Whole.Model`, except that there are samples.
-/
namespace Verif.Whole
open Verif.Sweep Verif.Cache

variable {P V M S : Type} [DecidableEq P] [DecidableEq V]

/-- A simulation with its sweeps and protocols, and `step.simulation.samples` of each protocol and step for given parameters. -/
structure SCfg (P V M S : Type) extends Cfg P V M S where
  samples : Nat → (P → V) → Nat

/-- `runSimulation` (`modularSweep.py:39-44`): `stepSample` is switched on, never off; only a `qProtocol` has `steps`, and only its own steps
are looked at (for a copy, `simulation` is that of the original, `QPro.py:364-366`). -/
def detect (cfg : SCfg P V M S) (st : St P V M) (ss : Nat → Bool) : Nat → Bool := fun i =>
  ss i || (decide (i ∈ cfg.protos) && !cfg.pr.leaf i && (st.steps i).any fun r => decide (1 < cfg.samples r.id st.σ))

/-- `step.unitary()`: that of a protocol (`QPro.py:195-206`) or of a copy (`QPro.py:376-378`, the same code as its `getUnitary`). -/
def stepU (cfg : SCfg P V M S) (r : Ref) (st : St P V M) : Option (Option M × St P V M) :=
  match r with
  | .orig j => unitary cfg.pr cfg.lim j st
  | .copy j hc => getRef cfg.pr cfg.lim (getU cfg.pr cfg.lim) (.copy j hc) st

/-- `for _ in range(step.simulation.samples)` (`modularSweep.py:157-159`): the current state and `sampleStates`. -/
def repeatStep (cfg : SCfg P V M S) (r : Ref) : Nat → S × List S → St P V M → Option ((S × List S) × St P V M)
  | 0, x, st => some (x, st)
  | n + 1, x, st =>
    match stepU cfg r st with
    | some (some u, st) => repeatStep cfg r n (cfg.act u x.1, x.2 ++ [cfg.act u x.1]) st
    | _ => none

/-- `for step in protocol.steps.values()` (`modularSweep.py:156-159`). -/
def sampleSteps (cfg : SCfg P V M S) : List Ref → S × List S → St P V M → Option ((S × List S) × St P V M)
  | [], x, st => some (x, st)
  | r :: rs, x, st =>
    match repeatStep cfg r (cfg.samples r.id st.σ) x st with
    | none => none
    | some (x, st) => sampleSteps cfg rs x st

/-- `timeEvolBase` (`modularSweep.py:147-161`) for closed protocols: current state and `sampleStates` of each protocol. -/
def advanceS (cfg : SCfg P V M S) (ss : Nat → Bool) : List Nat → (Nat → S × List S) → St P V M → Option ((Nat → S × List S) × St P V M)
  | [], cur, st => some (cur, st)
  | i :: r, cur, st =>
    if ss i then
      match sampleSteps cfg (st.steps i) ((cur i).1, []) st with
      | some (x, st) => advanceS cfg ss r (fun j => if j = i then x else cur j) st
      | none => none
    else
      match unitary cfg.pr cfg.lim i st with
      | some (some u, st) => advanceS cfg ss r (fun j => if j = i then (cfg.act u (cur i).1, []) else cur j) st
      | _ => none

/-- The loop over the time steps (`modularSweep.py:132-145`): what the callbacks find after each step. -/
def evolveLoopS (cfg : SCfg P V M S) (ss : Nat → Bool) : Nat → (Nat → S × List S) → St P V M →
    Option (List (Nat → S × List S) × St P V M)
  | 0, _, st => some ([], st)
  | n + 1, cur, st =>
    match advanceS cfg ss cfg.protos cur st with
    | none => none
    | some (cur, st) =>
      match evolveLoopS cfg ss n cur st with
      | none => none
      | some (l, st) => some (cur :: l, st)

/-- `_runSweepAndPrep` (`modularSweep.py:70-95`) and the beginning of `timeEvolDefault` (`:118-120`). -/
def pointS (cfg : SCfg P V M S) (ss : Nat → Bool) (fd : FloatDiv) (ind : Nat) (st : St P V M) :
    Option (List (Nat → S × List S) × St P V M) :=
  match sweepPoint fd (Sweep.prepare {} cfg.sweeps) cfg.sweeps ind with
  | none => none
  | some vals =>
    let st := sweepAssign cfg.pr cfg.targets vals st
    let cur := fun i => (cfg.init i st.σ, ([] : List S))
    match evolveLoopS cfg ss (cfg.stepCount st.σ) cur st with
    | none => none
    | some (l, st) => some (cur :: l, st)

/-- The loop of `nonParalEvol` (`modularSweep.py:52-55`). -/
def seqPointsS (cfg : SCfg P V M S) (ss : Nat → Bool) (fd : FloatDiv) : List Nat → St P V M →
    Option (List (List (Nat → S × List S)) × St P V M)
  | [], st => some ([], st)
  | ind :: r, st =>
    match pointS cfg ss fd ind st with
    | none => none
    | some (x, st) =>
      match seqPointsS cfg ss fd r st with
      | none => none
      | some (xs, st) => some (x :: xs, st)

/-- What is stored for protocol `i`, if a callback stores the state and the samples (the library itself stores the state, `QSim.py:321-327`). -/
def storedS (i : Nat) (l : List (Nat → S × List S)) : PyVal (S × List S) := .list (l.map fun c => .atom (c i))

/-- `Simulation.run(p=False)` (`QSim.py:330-358`, `modularSweep.py:39-56`): results of protocol `i`, and the objects afterwards. -/
def runSeqS (cfg : SCfg P V M S) (fd : FloatDiv) (i : Nat) (ss : Nat → Bool) (st : St P V M) :
    Option (PyVal (S × List S) × (Nat → Bool) × St P V M) :=
  match prepareAll cfg.toCfg cfg.protos st with
  | none => none
  | some st =>
    let ss := detect cfg st ss
    match seqPointsS cfg ss fd (List.range (Sweep.prepare {} cfg.sweeps).indMultip) st with
    | none => none
    | some (xs, st) =>
      match finalise (Sweep.prepare {} cfg.sweeps).inds (xs.map (storedS i)) with
      | none => none
      | some r => some (r, ss, st)

/-- The results of the jobs (`modularSweep.py:59-66`); each has its own copy of the objects, with `stepSample` as decided before. -/
def jobsS (cfg : SCfg P V M S) (ss : Nat → Bool) (fd : FloatDiv) (st : St P V M) : List Nat → Option (List (List (Nat → S × List S)))
  | [] => some []
  | ind :: r =>
    match pointS cfg ss fd ind st with
    | none => none
    | some (x, _) =>
      match jobsS cfg ss fd st r with
      | none => none
      | some xs => some (x :: xs)

/-- `Simulation.run(p=True)`. -/
def runParS (cfg : SCfg P V M S) (fd : FloatDiv) (i : Nat) (ss : Nat → Bool) (st : St P V M) :
    Option (PyVal (S × List S) × (Nat → Bool) × St P V M) :=
  match prepareAll cfg.toCfg cfg.protos st with
  | none => none
  | some st =>
    let ss := detect cfg st ss
    match jobsS cfg ss fd st (List.range (Sweep.prepare {} cfg.sweeps).indMultip) with
    | none => none
    | some xs =>
      match finalise (Sweep.prepare {} cfg.sweeps).inds (xs.map (storedS i)) with
      | none => none
      | some r => some (r, ss, st)

/-! ### Specification -/

/-- The matrices applied in one time step of a sampled protocol: those of the steps, in order, each as often as it has samples. -/
def applied (samples : Nat → Nat) (val : Nat → M) (rs : List Ref) : List M := rs.flatMap fun r => List.replicate (samples r.id) (val r.id)

/-- The state after applying matrices one after the other, and the states in between. -/
def after (act : M → S → S) (us : List M) (s : S) : S × List S :=
  (us.foldl (fun s u => act u s) s, (us.scanl (fun s u => act u s) s).tail)

/-- `x` are the states and samples found by the callbacks, if each time step is `f`. -/
def Course (f : S → S × List S) (s : S) (n : Nat) (x : List (S × List S)) : Prop :=
  x.length = n + 1 ∧ x[0]? = some (s, []) ∧ ∀ k < n, ∀ a, x[k]? = some a → x[k + 1]? = some (f a.1)

omit [DecidableEq P] [DecidableEq V] in
theorem after_append (act : M → S → S) : ∀ (us vs : List M) (s : S),
    after act (us ++ vs) s = ((after act vs (after act us s).1).1, (after act us s).2 ++ (after act vs (after act us s).1).2)
  | [], vs, s => by simp [after]
  | u :: us, vs, s => by
    have ih := after_append act us vs (act u s)
    simp only [after, List.cons_append, List.foldl_cons, List.scanl_cons, List.tail_cons, Prod.mk.injEq] at ih ⊢
    refine ⟨ih.1, ?_⟩
    have key : ∀ (l : List M) (s : S), List.scanl (fun s u => act u s) s l = s :: (List.scanl (fun s u => act u s) s l).tail := by
      intro l s; cases l <;> simp [List.scanl_cons]
    rw [key (us ++ vs), key us, ih.2]
    simp

section
variable {cfg : SCfg P V M S} {steps : Nat → List Ref} {rank : Nat → Nat} (h : Nice cfg.toCfg steps rank)
include h

theorem stepU_good {st : St P V M} (hg : Good cfg.pr steps st) {val : Nat → M} (hv : FromScratch cfg.pr st val) {i : Nat} {r : Ref}
    (hr : r ∈ steps i) (hi : rank r.id + 1 < cfg.lim) : ∃ st', stepU cfg r st = some (some (val r.id), st') ∧ Good cfg.pr steps st' ∧
      st'.σ = st.σ ∧ st'.ratio = st.ratio := by
  obtain ⟨st', e, g, s1, s2⟩ := unitary_good h hg hv hi
  cases r with
  | orig j => exact ⟨st', e, g, s1, s2⟩
  | copy j c =>
    cases c with
    | true => exact absurd hr (h.tame.noHc i j)
    | false =>
      refine ⟨st', ?_, g, s1, s2⟩
      have p := unitaryOf_spec (lim := cfg.lim) h.tame (fun i st r st' a b c d => getU_spec (val := val) h.tame cfg.lim i st r st' a b c d)
        j st _ st' hg.1 hv (hg.2 val hv) e
      show (match unitaryOf cfg.pr cfg.lim (getU cfg.pr cfg.lim) j st with | none => none | some (_, st) => _) = _
      have e' : unitaryOf cfg.pr cfg.lim (getU cfg.pr cfg.lim) j st = some (some (val j), st') := e
      rw [e']
      simp only [Bool.false_eq_true, if_false, p.mat]
      rfl

theorem repeatStep_good {i : Nat} {r : Ref} (hr : r ∈ steps i) (hi : rank r.id + 1 < cfg.lim) : ∀ (n : Nat) (x : S × List S) (st : St P V M),
    Good cfg.pr steps st → ∀ val, FromScratch cfg.pr st val → ∃ st', repeatStep cfg r n x st =
      some (((after cfg.act (List.replicate n (val r.id)) x.1).1, x.2 ++ (after cfg.act (List.replicate n (val r.id)) x.1).2), st') ∧
      Good cfg.pr steps st' ∧ st'.σ = st.σ ∧ st'.ratio = st.ratio
  | 0, x, st, hg, val, hv => ⟨st, by simp [repeatStep, after], hg, rfl, rfl⟩
  | n + 1, x, st, hg, val, hv => by
    obtain ⟨st1, e1, g1, s1, r1⟩ := stepU_good h hg hv hr hi
    obtain ⟨st2, e2, g2, s2, r2⟩ := repeatStep_good hr hi n (cfg.act (val r.id) x.1, x.2 ++ [cfg.act (val r.id) x.1]) st1 g1 val
      (fromScratch_congr hv s1 r1 (g1.1.trans hg.1.symm))
    refine ⟨st2, ?_, g2, s2.trans s1, r2.trans r1⟩
    simp only [repeatStep, e1, e2]
    rw [show List.replicate (n + 1) (val r.id) = [val r.id] ++ List.replicate n (val r.id) from rfl, after_append]
    simp [after]

theorem sampleSteps_good {i : Nat} : ∀ (rs : List Ref), (∀ r ∈ rs, r ∈ steps i ∧ rank r.id + 1 < cfg.lim) → ∀ (x : S × List S) (st : St P V M),
    Good cfg.pr steps st → ∀ val, FromScratch cfg.pr st val → ∃ st', sampleSteps cfg rs x st =
      some (((after cfg.act (applied (fun j => cfg.samples j st.σ) val rs) x.1).1,
        x.2 ++ (after cfg.act (applied (fun j => cfg.samples j st.σ) val rs) x.1).2), st') ∧
      Good cfg.pr steps st' ∧ st'.σ = st.σ ∧ st'.ratio = st.ratio
  | [], _, x, st, hg, val, hv => ⟨st, by simp [sampleSteps, after, applied], hg, rfl, rfl⟩
  | r :: rs, hrs, x, st, hg, val, hv => by
    obtain ⟨st1, e1, g1, s1, r1⟩ := repeatStep_good h (hrs r (by simp)).1 (hrs r (by simp)).2 (cfg.samples r.id st.σ) x st hg val hv
    obtain ⟨st2, e2, g2, s2, r2⟩ := sampleSteps_good rs (fun q hq => hrs q (by simp [hq]))
      ((after cfg.act (List.replicate (cfg.samples r.id st.σ) (val r.id)) x.1).1,
        x.2 ++ (after cfg.act (List.replicate (cfg.samples r.id st.σ) (val r.id)) x.1).2) st1 g1 val
      (fromScratch_congr hv s1 r1 (g1.1.trans hg.1.symm))
    refine ⟨st2, ?_, g2, s2.trans s1, r2.trans r1⟩
    simp only [sampleSteps, e1, e2, s1]
    have : applied (fun j => cfg.samples j st.σ) val (r :: rs) =
        List.replicate (cfg.samples r.id st.σ) (val r.id) ++ applied (fun j => cfg.samples j st.σ) val rs := by simp [applied]
    rw [this, after_append]
    simp

/-- One time step of protocol `i` with given `stepSample`. -/
def stepOf (cfg : SCfg P V M S) (ss : Nat → Bool) (steps : Nat → List Ref) (val : Nat → M) (σ : P → V) (i : Nat) (s : S) : S × List S :=
  if ss i then after cfg.act (applied (fun j => cfg.samples j σ) val (steps i)) s else (cfg.act (val i) s, [])

/-- `stepSample` is on only for protocols with steps. -/
def FlagsOk (cfg : SCfg P V M S) (ss : Nat → Bool) : Prop := ∀ i, ss i = true → cfg.pr.leaf i = false

theorem advanceS_good {ss : Nat → Bool} (hss : FlagsOk cfg ss) : ∀ (l : List Nat) (cur : Nat → S × List S) (st : St P V M), l.Nodup →
    (∀ i ∈ l, rank i + 1 < cfg.lim) →
    Good cfg.pr steps st → ∀ val, FromScratch cfg.pr st val → ∃ st',
      advanceS cfg ss l cur st = some (fun i => if i ∈ l then stepOf cfg ss steps val st.σ i (cur i).1 else cur i, st') ∧
      Good cfg.pr steps st' ∧ st'.σ = st.σ ∧ st'.ratio = st.ratio
  | [], cur, st, _, _, hg, val, hv => ⟨st, by simp [advanceS], hg, rfl, rfl⟩
  | i :: l, cur, st, hn, hd, hg, val, hv => by
    have key : ∃ st1, (if ss i then sampleSteps cfg (st.steps i) ((cur i).1, []) st
        else match unitary cfg.pr cfg.lim i st with
          | some (some u, st) => some ((cfg.act u (cur i).1, []), st)
          | _ => none) = some (stepOf cfg ss steps val st.σ i (cur i).1, st1) ∧
        Good cfg.pr steps st1 ∧ st1.σ = st.σ ∧ st1.ratio = st.ratio := by
      by_cases hi : ss i = true
      · obtain ⟨st1, e1, g⟩ := sampleSteps_good h (i := i) (st.steps i) (fun r hr => by
          rw [hg.1] at hr
          have h1 := h.covers.rank i (hss i hi) r hr
          have h2 := hd i (by simp)
          exact ⟨hr, by omega⟩) ((cur i).1, []) st hg val hv
        refine ⟨st1, ?_, g⟩
        rw [if_pos hi, e1, stepOf, if_pos hi, hg.1]
        simp
      · obtain ⟨st1, e1, g⟩ := unitary_good h hg hv (hd i (by simp))
        refine ⟨st1, ?_, g⟩
        rw [if_neg hi, e1, stepOf, if_neg hi]
    obtain ⟨st1, e1, g1, s1, r1⟩ := key
    obtain ⟨st2, e2, g2, s2, r2⟩ := advanceS_good hss l (fun j => if j = i then stepOf cfg ss steps val st.σ i (cur i).1 else cur j) st1
      (List.nodup_cons.1 hn).2 (fun j hj => hd j (by simp [hj])) g1 val
      (fromScratch_congr hv s1 r1 (g1.1.trans hg.1.symm))
    refine ⟨st2, ?_, g2, s2.trans s1, r2.trans r1⟩
    have : advanceS cfg ss (i :: l) cur st = advanceS cfg ss l (fun j => if j = i then stepOf cfg ss steps val st.σ i (cur i).1 else cur j) st1 := by
      rw [advanceS]
      by_cases hi : ss i = true
      · rw [if_pos hi] at e1 ⊢
        rw [e1]
      · rw [if_neg hi] at e1 ⊢
        split at e1
        · next u st0 he =>
          simp only [Option.some.injEq, Prod.mk.injEq] at e1
          obtain ⟨e1, rfl⟩ := e1
          rw [← e1]
        · simp at e1
    rw [this, e2]
    simp only [Option.some.injEq, Prod.mk.injEq, and_true]
    funext j
    by_cases hj : j = i
    · subst hj
      simp [(List.nodup_cons.1 hn).1]
    · simp [hj, s1]

theorem evolveLoopS_good {ss : Nat → Bool} (hss : FlagsOk cfg ss) : ∀ (n : Nat) (cur : Nat → S × List S) (st : St P V M),
    Good cfg.pr steps st → ∀ val, FromScratch cfg.pr st val →
    ∃ st', evolveLoopS cfg ss n cur st = some ((List.range n).map
        (fun k i => if i ∈ cfg.protos then (fun x => stepOf cfg ss steps val st.σ i x.1)^[k + 1] (cur i) else cur i), st') ∧
      Good cfg.pr steps st' ∧ st'.σ = st.σ ∧ st'.ratio = st.ratio
  | 0, cur, st, hg, val, hv => ⟨st, rfl, hg, rfl, rfl⟩
  | n + 1, cur, st, hg, val, hv => by
    obtain ⟨st1, e1, g1, s1, r1⟩ := advanceS_good h hss cfg.protos cur st h.nodup h.deep hg val hv
    obtain ⟨st2, e2, g2, s2, r2⟩ := evolveLoopS_good hss n (fun i => if i ∈ cfg.protos then stepOf cfg ss steps val st.σ i (cur i).1 else cur i)
      st1 g1 val (fromScratch_congr hv s1 r1 (g1.1.trans hg.1.symm))
    refine ⟨st2, ?_, g2, s2.trans s1, r2.trans r1⟩
    rw [evolveLoopS, e1]
    simp only [e2, List.range_succ_eq_map, List.map_cons, List.map_map]
    congr 3
    apply List.map_congr_left
    intro k _
    funext i
    by_cases hi : i ∈ cfg.protos
    · simp [hi, s1]
    · simp [hi]

/-- States and samples at one sweep point. -/
def statesAtS (cfg : SCfg P V M S) (ss : Nat → Bool) (steps : Nat → List Ref) (val : Nat → M) (σ : P → V) : List (Nat → S × List S) :=
  (List.range (cfg.stepCount σ + 1)).map fun k i =>
    if i ∈ cfg.protos then (fun x => stepOf cfg ss steps val σ i x.1)^[k] (cfg.init i σ, []) else (cfg.init i σ, [])

omit h [DecidableEq P] [DecidableEq V] in
theorem statesAtS_course (ss : Nat → Bool) (val : Nat → M) (σ : P → V) (i : Nat) (hi : i ∈ cfg.protos) :
    Course (stepOf cfg ss steps val σ i) (cfg.init i σ) (cfg.stepCount σ) ((statesAtS cfg ss steps val σ).map fun c => c i) := by
  refine ⟨by simp [statesAtS], by simp [statesAtS, hi, List.range_succ_eq_map], ?_⟩
  intro k hk a ha
  simp only [statesAtS, List.map_map, List.getElem?_map, List.getElem?_range (show k < cfg.stepCount σ + 1 by omega),
    List.getElem?_range (show k + 1 < cfg.stepCount σ + 1 by omega), Option.map_some, Function.comp, hi, if_true,
    Option.some.injEq] at ha ⊢
  rw [← ha, Function.iterate_succ_apply']

theorem pointS_good {ss : Nat → Bool} (hss : FlagsOk cfg ss) (fd : FloatDiv) (ind : Nat) (st : St P V M) (hg : Good cfg.pr steps st)
    (vals : List V) (hv : sweepPoint fd (Sweep.prepare {} cfg.sweeps) cfg.sweeps ind = some vals) :
    ∃ val st', FromScratch cfg.pr (init (overwrite cfg.targets vals st.σ) st.ratio steps : St P V M) val ∧
      pointS cfg ss fd ind st = some (statesAtS cfg ss steps val (overwrite cfg.targets vals st.σ), st') ∧ Good cfg.pr steps st' ∧
      st'.σ = overwrite cfg.targets vals st.σ ∧ st'.ratio = st.ratio := by
  obtain ⟨g1, r1, s1⟩ := sweepAssign_good h cfg.targets vals st hg
  obtain ⟨val, hval⟩ := fromScratch_exists (pr := cfg.pr) (st := sweepAssign cfg.pr cfg.targets vals st)
    (fun i hl r hr => h.covers.rank i hl r (g1.1 ▸ hr))
  obtain ⟨st2, e2, g2, s2, r2⟩ := evolveLoopS_good h hss (cfg.stepCount (sweepAssign cfg.pr cfg.targets vals st).σ)
    (fun i => (cfg.init i (sweepAssign cfg.pr cfg.targets vals st).σ, [])) _ g1 val hval
  refine ⟨val, st2, fromScratch_congr hval s1.symm r1.symm g1.1.symm, ?_, g2, s2.trans s1, r2.trans r1⟩
  simp only [pointS, hv, e2]
  rw [s1]
  simp only [statesAtS, List.range_succ_eq_map (n := cfg.stepCount _), List.map_cons, List.map_map]
  congr 3
  funext i
  simp

/-- What is found at a sweep point, as a function of the parameters at the beginning of the run. -/
noncomputable def freshS (cfg : SCfg P V M S) (ss : Nat → Bool) (ratio : Nat → V) (steps : Nat → List Ref) (rank : Nat → Nat) (σ : P → V) :
    List (Nat → S × List S) :=
  statesAtS cfg ss steps (fun i => scratchF cfg.pr (init σ ratio steps : St P V M) (rank i + 1) i) σ

theorem pointS_fresh {ss : Nat → Bool} (hss : FlagsOk cfg ss) (fd : FloatDiv) (ind : Nat) (st : St P V M) (hg : Good cfg.pr steps st)
    (vals : List V) (hv : sweepPoint fd (Sweep.prepare {} cfg.sweeps) cfg.sweeps ind = some vals) :
    ∃ st', pointS cfg ss fd ind st = some (freshS cfg ss st.ratio steps rank (overwrite cfg.targets vals st.σ), st') ∧
      Good cfg.pr steps st' ∧ st'.σ = overwrite cfg.targets vals st.σ ∧ st'.ratio = st.ratio := by
  obtain ⟨val, st', h1, h2, h3⟩ := pointS_good h hss fd ind st hg vals hv
  refine ⟨st', ?_, h3⟩
  rw [h2]
  have := scratchF_fromScratch (pr := cfg.pr) (st := (init (overwrite cfg.targets vals st.σ) st.ratio steps : St P V M)) (rank := rank)
    (fun i hl r hr => h.covers.rank i hl r hr)
  rw [val_unique (cfg := cfg.toCfg) h.covers rfl this h1]
  rfl

theorem seqPointsS_good {ss : Nat → Bool} (hss : FlagsOk cfg ss) (fd : FloatDiv) (σ : P → V) (ratio : Nat → V) :
    ∀ (l : List Nat) (st : St P V M), Good cfg.pr steps st → st.ratio = ratio →
    (∀ q, (∀ t ∈ cfg.targets, q ∉ t) → st.σ q = σ q) →
    ∀ vs : List (List V), l.map (fun ind => sweepPoint fd (Sweep.prepare {} cfg.sweeps) cfg.sweeps ind) = vs.map some →
    ∃ st', seqPointsS cfg ss fd l st = some (vs.map (fun v => freshS cfg ss ratio steps rank (overwrite cfg.targets v σ)), st') ∧
      Good cfg.pr steps st' ∧ st'.ratio = ratio ∧ (∀ q, (∀ t ∈ cfg.targets, q ∉ t) → st'.σ q = σ q)
  | [], st, hg, hr, hσ, vs, hv => by
    obtain rfl : vs = [] := by cases vs with | nil => rfl | cons => simp at hv
    exact ⟨st, rfl, hg, hr, hσ⟩
  | ind :: l, st, hg, hr, hσ, vs, hv => by
    cases vs with
    | nil => simp at hv
    | cons v vs =>
      simp only [List.map_cons, List.cons.injEq] at hv
      obtain ⟨st1, e1, g1, s1, r1⟩ := pointS_fresh h hss fd ind st hg v hv.1
      have hlen : cfg.targets.length ≤ v.length := by rw [sweepPoint_length hv.1, h.targets]
      have ho : overwrite cfg.targets v st.σ = overwrite cfg.targets v σ := overwrite_congr _ _ _ _ hlen hσ
      have hσ1 : ∀ q, (∀ t ∈ cfg.targets, q ∉ t) → st1.σ q = σ q := fun q hq => by
        rw [s1, overwrite_off _ _ _ _ hq, hσ q hq]
      obtain ⟨st2, e2, g2, r2, s2⟩ := seqPointsS_good hss fd σ ratio l st1 g1 (r1.trans hr) hσ1 vs hv.2
      refine ⟨st2, ?_, g2, r2, s2⟩
      simp only [seqPointsS, e1, e2, List.map_cons, ho, hr]

theorem jobsS_good {ss : Nat → Bool} (hss : FlagsOk cfg ss) (fd : FloatDiv) (st : St P V M) (hg : Good cfg.pr steps st) :
    ∀ (l : List Nat) (vs : List (List V)),
    l.map (fun ind => sweepPoint fd (Sweep.prepare {} cfg.sweeps) cfg.sweeps ind) = vs.map some →
    jobsS cfg ss fd st l = some (vs.map (fun v => freshS cfg ss st.ratio steps rank (overwrite cfg.targets v st.σ)))
  | [], vs, hv => by
    obtain rfl : vs = [] := by cases vs with | nil => rfl | cons => simp at hv
    rfl
  | ind :: l, vs, hv => by
    cases vs with
    | nil => simp at hv
    | cons v vs =>
      simp only [List.map_cons, List.cons.injEq] at hv
      obtain ⟨st1, e1, -⟩ := pointS_fresh h hss fd ind st hg v hv.1
      simp only [jobsS, e1, jobsS_good hss fd st hg l vs hv.2, List.map_cons]

theorem runSeqS_fresh (fd : FloatDiv) (i : Nat) (ss : Nat → Bool) (st : St P V M) (hg : Good cfg.pr steps st)
    (hss : FlagsOk cfg (detect cfg st ss)) (σ : P → V) (hσ : ∀ q, (∀ t ∈ cfg.targets, q ∉ t) → st.σ q = σ q) (r : PyVal (S × List S))
    (e : runAll fd cfg.sweeps (fun v => storedS i (freshS cfg (detect cfg st ss) st.ratio steps rank (overwrite cfg.targets v σ))) = some r) :
    ∃ st', runSeqS cfg fd i ss st = some (r, detect cfg st ss, st') ∧ Good cfg.pr steps st' ∧ st'.ratio = st.ratio ∧
      (∀ q, (∀ t ∈ cfg.targets, q ∉ t) → st'.σ q = σ q) := by
  obtain ⟨vs, e1, e2⟩ := runAll_points fd _ _ _ e
  obtain ⟨st', e3, g, r', s'⟩ := seqPointsS_good h hss fd σ st.ratio _ st hg rfl hσ vs e1
  refine ⟨st', ?_, g, r', s'⟩
  simp only [runSeqS, prepareAll_eq h cfg.protos h.deep st hg.1, e3, List.map_map]
  rw [show vs.map (storedS i ∘ fun v => freshS cfg (detect cfg st ss) st.ratio steps rank (overwrite cfg.targets v σ)) =
    vs.map (fun v => storedS i (freshS cfg (detect cfg st ss) st.ratio steps rank (overwrite cfg.targets v σ))) from rfl, e2]

theorem runParS_fresh (fd : FloatDiv) (i : Nat) (ss : Nat → Bool) (st : St P V M) (hg : Good cfg.pr steps st)
    (hss : FlagsOk cfg (detect cfg st ss)) (r : PyVal (S × List S))
    (e : runAll fd cfg.sweeps (fun v => storedS i (freshS cfg (detect cfg st ss) st.ratio steps rank (overwrite cfg.targets v st.σ))) = some r) :
    runParS cfg fd i ss st = some (r, detect cfg st ss, st) := by
  obtain ⟨vs, e1, e2⟩ := runAll_points fd _ _ _ e
  simp only [runParS, prepareAll_eq h cfg.protos h.deep st hg.1, jobsS_good h hss fd st hg _ vs e1, List.map_map]
  rw [show vs.map (storedS i ∘ fun v => freshS cfg (detect cfg st ss) st.ratio steps rank (overwrite cfg.targets v st.σ)) =
    vs.map (fun v => storedS i (freshS cfg (detect cfg st ss) st.ratio steps rank (overwrite cfg.targets v st.σ))) from rfl, e2]

omit h [DecidableEq P] [DecidableEq V] in
theorem flagsOk_detect {ss : Nat → Bool} (hss : FlagsOk cfg ss) (st : St P V M) : FlagsOk cfg (detect cfg st ss) := by
  intro i hi
  simp only [detect, Bool.or_eq_true, Bool.and_eq_true, Bool.not_eq_true'] at hi
  rcases hi with hi | ⟨⟨-, hi⟩, -⟩
  · exact hss i hi
  · exact hi

end

end Verif.Whole
