import Verif.Whole.Schroedinger
import Verif.Evol.Sampling

/-!
# C82: whole runs with a time-dependent sweep

`Verif.Whole.Model` with `qSim.timeDependency` (`modularSweep.py:97-113,131-137`): at every time step its sweeps assign the values with the
number of the step, and nothing is set back.  Simplifications: those of `Verif.Whole.Model`; the sweeps have the default sweep function; the
number of steps is the value of the property `stepCount` (see C51 for what it is).
-/
namespace Verif.Whole
open Verif.Sweep Verif.Cache

variable {P V M S : Type} [DecidableEq P] [DecidableEq V]

/-- A simulation with sweeps and time-dependent sweeps. -/
structure TCfg (P V M S : Type) extends Cfg P V M S where
  /-- `timeDependency.sweeps` -/
  td : List (SweepObj V)
  /-- the attributes each of them assigns -/
  tdTargets : List (List P)

/-- `inds` of `timeDependency` at a sweep point (`modularSweep.py:101-104`): `prepare` is called if the list of the first sweep exists already
(`filled`); a list to be made from `sweepMin`, `sweepMax` and `sweepStep` does not before it is first used (`QSweep.py:122-135`). -/
def tdState (filled : Bool) (n : Nat) (td : List (SweepObj V)) : SweepState := if filled then Sweep.prepare {} td else { inds := [n] }

/-- The loop over the time steps (`modularSweep.py:131-145`), from step `k` on: `timeDependency.runSweep`, then `timeEvolBase`. -/
def evolveLoopT (cfg : TCfg P V M S) (fd : FloatDiv) (ts : SweepState) : Nat → Nat → (Nat → S) → St P V M →
    Option (List (Nat → S) × St P V M)
  | 0, _, _, st => some ([], st)
  | n + 1, k, cur, st =>
    match sweepPoint fd ts cfg.td k with
    | none => none
    | some vals =>
      match advance cfg.toCfg cfg.protos cur (sweepAssign cfg.pr cfg.tdTargets vals st) with
      | none => none
      | some (cur, st) =>
        match evolveLoopT cfg fd ts n (k + 1) cur st with
        | none => none
        | some (l, st) => some (cur :: l, st)

/-- `_runSweepAndPrep` (`modularSweep.py:70-95`); also whether the list of the first time-dependent sweep exists afterwards. -/
def pointT (cfg : TCfg P V M S) (fd : FloatDiv) (ind : Nat) (filled : Bool) (st : St P V M) :
    Option (List (Nat → S) × Bool × St P V M) :=
  match sweepPoint fd (Sweep.prepare {} cfg.sweeps) cfg.sweeps ind with
  | none => none
  | some vals =>
    let st := sweepAssign cfg.pr cfg.targets vals st
    let cur := fun i => cfg.init i st.σ
    let n := cfg.stepCount st.σ
    match evolveLoopT cfg fd (tdState filled n cfg.td) n 0 cur st with
    | none => none
    | some (l, st) => some (cur :: l, filled || decide (0 < n), st)

/-- The loop of `nonParalEvol` (`modularSweep.py:52-55`). -/
def seqPointsT (cfg : TCfg P V M S) (fd : FloatDiv) : List Nat → Bool → St P V M → Option (List (List (Nat → S)) × Bool × St P V M)
  | [], filled, st => some ([], filled, st)
  | ind :: r, filled, st =>
    match pointT cfg fd ind filled st with
    | none => none
    | some (x, filled, st) =>
      match seqPointsT cfg fd r filled st with
      | none => none
      | some (xs, y) => some (x :: xs, y)

/-- `Simulation.run(p=False)` (`QSim.py:330-358`). -/
def runSeqT (cfg : TCfg P V M S) (fd : FloatDiv) (i : Nat) (filled : Bool) (st : St P V M) : Option (PyVal S × Bool × St P V M) :=
  match prepareAll cfg.toCfg cfg.protos st with
  | none => none
  | some st =>
    match seqPointsT cfg fd (List.range (Sweep.prepare {} cfg.sweeps).indMultip) filled st with
    | none => none
    | some (xs, y) =>
      match finalise (Sweep.prepare {} cfg.sweeps).inds (xs.map (stored i)) with
      | none => none
      | some r => some (r, y)

/-- The results of the jobs, each with its own copy of the objects (`modularSweep.py:59-66`). -/
def jobsT (cfg : TCfg P V M S) (fd : FloatDiv) (filled : Bool) (st : St P V M) : List Nat → Option (List (List (Nat → S)))
  | [] => some []
  | ind :: r =>
    match pointT cfg fd ind filled st with
    | none => none
    | some (x, _) =>
      match jobsT cfg fd filled st r with
      | none => none
      | some xs => some (x :: xs)

/-- `Simulation.run(p=True)`. -/
def runParT (cfg : TCfg P V M S) (fd : FloatDiv) (i : Nat) (filled : Bool) (st : St P V M) : Option (PyVal S × Bool × St P V M) :=
  match prepareAll cfg.toCfg cfg.protos st with
  | none => none
  | some st =>
    match jobsT cfg fd filled st (List.range (Sweep.prepare {} cfg.sweeps).indMultip) with
    | none => none
    | some xs =>
      match finalise (Sweep.prepare {} cfg.sweeps).inds (xs.map (stored i)) with
      | none => none
      | some r => some (r, filled, st)

/-! ### Specification -/

/-- The restrictions: those of C72, one list of targets per time-dependent sweep, neither the initial states nor the number of steps use a
time-dependent attribute, and fewer than 2^53 steps. -/
structure NiceT (cfg : TCfg P V M S) (steps : Nat → List Ref) (rank : Nat → Nat) : Prop extends Nice cfg.toCfg steps rank where
  tdTargets : cfg.tdTargets.length = cfg.td.length
  init : ∀ i σ τ, (∀ q, (∀ t ∈ cfg.tdTargets, q ∉ t) → σ q = τ q) → cfg.init i σ = cfg.init i τ
  count : ∀ σ τ, (∀ q, (∀ t ∈ cfg.tdTargets, q ∉ t) → σ q = τ q) → cfg.stepCount σ = cfg.stepCount τ
  few : ∀ σ, cfg.stepCount σ ≤ 2 ^ 53

/-- The time-dependent sweeps: at least one, the first not simultaneous, all long enough and not empty. -/
structure TdOk (td : List (SweepObj V)) : Prop where
  first : ∃ s ss, td = s :: ss ∧ s.comb = false
  long : LongEnough td
  pos : ∀ n ∈ axes td, 0 < n

/-- The list of the first time-dependent sweep exists, or there is only one such sweep and its list is not shorter than the evolution. -/
def ListsOk (cfg : TCfg P V M S) (filled : Bool) : Prop :=
  filled = true ∨ ∃ s, cfg.td = [s] ∧ ∀ σ, cfg.stepCount σ ≤ s.values.length

/-- The number of the combination of time-dependent values of step `k`. -/
def stepValues (td : List (SweepObj V)) (k : Nat) (vals : List V) : Prop :=
  ∃ t, (tuples (axes td))[k % (axes td).prod]? = some t ∧ Delivers td t vals

omit [DecidableEq P] [DecidableEq V] in
theorem td_point (fd : FloatDiv) {td : List (SweepObj V)} (h : TdOk td) {k : Nat} (hk : k ≤ 2 ^ 53) :
    ∃ vals, sweepPoint fd (Sweep.prepare {} td) td k = some vals ∧ stepValues td k vals := by
  obtain ⟨⟨s, ss, rfl, hc⟩, hl, hp⟩ := h
  set L := axes (s :: ss) with hL
  have hprod : 0 < L.prod := Nat.pos_of_ne_zero fun h0 => by
    have := List.prod_eq_zero_iff.1 h0
    exact absurd (hp 0 this) (by simp)
  obtain ⟨vals, h1, h2⟩ := C03_lockstep_partial s ss hc hl (idxOf L (k % L.prod)) (idxOf_valid L _ (Nat.mod_lt _ hprod))
  refine ⟨vals, ?_, _, ?_, h2⟩
  · rw [sweepPoint, prepare_inds _ _ (List.cons_ne_nil s ss), if_pos (by simp [axes]), indicesForSweep,
      Evol.indicesLoop_pos fd _ _ _ (fun a ha => hp a (List.mem_reverse.1 ha)) hk]
    simp only [List.append_nil]
    rw [← h1, ← idxOf_mod L k hprod]
    rfl
  · rw [← map_idxOf_range, List.getElem?_map, List.getElem?_range (Nat.mod_lt _ hprod)]
    rfl

omit [DecidableEq P] [DecidableEq V] in
/-- A list that does not exist yet is used from its beginning, as one that exists, as long as it lasts. -/
theorem tdState_point {cfg : TCfg P V M S} {filled : Bool} (h : ListsOk cfg filled) (fd : FloatDiv) (σ : P → V) {k : Nat}
    (hk : k < cfg.stepCount σ) : sweepPoint fd (tdState filled (cfg.stepCount σ) cfg.td) cfg.td k =
      sweepPoint fd (Sweep.prepare {} cfg.td) cfg.td k := by
  rcases h with rfl | ⟨s, e, hs⟩
  · rfl
  · cases filled with
    | true => rfl
    | false =>
      have hl := hs σ
      have h0 : s.values.length ≠ 0 := by omega
      have h1 : cfg.stepCount σ ≠ 0 := by omega
      rw [e]
      simp [tdState, sweepPoint, Sweep.prepare, prepareLoop, indicesForSweep, indicesLoop, h0, h1, Nat.mod_eq_of_lt hk,
        Nat.mod_eq_of_lt (lt_of_lt_of_le hk hl)]

omit [DecidableEq V] in
theorem overwrite_at : ∀ (ts : List (List P)) (vs : List V) (σ τ : P → V) (q : P), ts.length ≤ vs.length →
    ((∀ t ∈ ts, q ∉ t) → σ q = τ q) → overwrite ts vs σ q = overwrite ts vs τ q
  | [], _, σ, τ, q, _, hq => hq (by simp)
  | _ :: _, [], _, _, _, hl, _ => by simp at hl
  | t :: ts, v :: vs, σ, τ, q, hl, hq => by
    rw [overwrite, overwrite]
    refine overwrite_at ts vs _ _ q (by simpa using hl) fun hq' => ?_
    by_cases h : q ∈ t
    · simp [h]
    · simp only [h, if_false]
      exact hq (by simp [h]; exact hq')

section
variable {cfg : TCfg P V M S} {steps : Nat → List Ref} {rank : Nat → Nat} (h : NiceT cfg steps rank)

/-- The values of step `k`. -/
def tdVals (fd : FloatDiv) (td : List (SweepObj V)) (k : Nat) : List V := (sweepPoint fd (Sweep.prepare {} td) td k).getD []

/-- The unitaries of step `k`, made from scratch. -/
noncomputable def stepMat (cfg : TCfg P V M S) (fd : FloatDiv) (ratio : Nat → V) (steps : Nat → List Ref) (rank : Nat → Nat) (σ : P → V)
    (k i : Nat) : M :=
  scratchF cfg.pr (init (overwrite cfg.tdTargets (tdVals fd cfg.td k) σ) ratio steps : St P V M) (rank i + 1) i

/-- The states at a sweep point. -/
noncomputable def freshT (cfg : TCfg P V M S) (fd : FloatDiv) (ratio : Nat → V) (steps : Nat → List Ref) (rank : Nat → Nat) (σ : P → V) :
    List (Nat → S) :=
  (List.range (cfg.stepCount σ + 1)).map fun j i =>
    if i ∈ cfg.protos then (List.range j).foldl (fun s m => cfg.act (stepMat cfg fd ratio steps rank σ m i) s) (cfg.init i σ)
    else cfg.init i σ

include h

theorem evolveLoopT_good (fd : FloatDiv) (ts : SweepState) (ratio : Nat → V) (σ : P → V) : ∀ (n k : Nat) (cur : Nat → S) (st : St P V M),
    (∀ j, k ≤ j → j < k + n → sweepPoint fd ts cfg.td j = some (tdVals fd cfg.td j) ∧ (tdVals fd cfg.td j).length = cfg.td.length) →
    Good cfg.pr steps st → st.ratio = ratio → (∀ q, (∀ t ∈ cfg.tdTargets, q ∉ t) → st.σ q = σ q) →
    ∃ st', evolveLoopT cfg fd ts n k cur st = some ((List.range n).map (fun j i => if i ∈ cfg.protos then
        (List.range' k (j + 1)).foldl (fun s m => cfg.act (stepMat cfg fd ratio steps rank σ m i) s) (cur i) else cur i), st') ∧
      Good cfg.pr steps st' ∧ st'.ratio = ratio ∧ (∀ q, (∀ t ∈ cfg.tdTargets, q ∉ t) → st'.σ q = σ q)
  | 0, k, cur, st, _, hg, hr, hσ => ⟨st, rfl, hg, hr, hσ⟩
  | n + 1, k, cur, st, hv, hg, hr, hσ => by
    obtain ⟨hk, hkl⟩ := hv k le_rfl (by omega)
    obtain ⟨g1, r1, s1⟩ := sweepAssign_good h.toNice cfg.tdTargets (tdVals fd cfg.td k) st hg
    have hlen : cfg.tdTargets.length ≤ (tdVals fd cfg.td k).length := by rw [hkl, h.tdTargets]
    have ho : overwrite cfg.tdTargets (tdVals fd cfg.td k) st.σ = overwrite cfg.tdTargets (tdVals fd cfg.td k) σ :=
      overwrite_congr _ _ _ _ hlen hσ
    have hval : FromScratch cfg.pr (sweepAssign cfg.pr cfg.tdTargets (tdVals fd cfg.td k) st) (stepMat cfg fd ratio steps rank σ k) := by
      refine fromScratch_congr (st := (init (overwrite cfg.tdTargets (tdVals fd cfg.td k) σ) ratio steps : St P V M))
        (scratchF_fromScratch (rank := rank) (fun i hl r hr => h.covers.rank i hl r hr)) (s1.trans ho) (r1.trans hr) g1.1
    obtain ⟨st1, e1, g1', s1', r1'⟩ := advance_good h.toNice cfg.protos cur _ h.nodup h.deep g1 _ hval
    have hσ1 : ∀ q, (∀ t ∈ cfg.tdTargets, q ∉ t) → st1.σ q = σ q := fun q hq => by
      rw [s1', s1, overwrite_off _ _ _ _ hq, hσ q hq]
    obtain ⟨st2, e2, g2, r2, s2⟩ := evolveLoopT_good fd ts ratio σ n (k + 1)
      (fun i => if i ∈ cfg.protos then cfg.act (stepMat cfg fd ratio steps rank σ k i) (cur i) else cur i) st1
      (fun j h1 h2 => hv j (by omega) (by omega)) g1' (r1'.trans (r1.trans hr)) hσ1
    refine ⟨st2, ?_, g2, r2, s2⟩
    simp only [evolveLoopT, hk, e1, e2]
    simp only [List.range_succ_eq_map, List.map_cons, List.map_map]
    congr 3
    apply List.map_congr_left
    intro j _
    funext i
    by_cases hi : i ∈ cfg.protos
    · simp only [hi, if_true, Function.comp, Nat.succ_eq_add_one]
      rw [List.range'_succ (s := k), List.foldl_cons]
    · simp [hi]

variable (hc : TdOk cfg.td)
include hc

omit h [DecidableEq P] [DecidableEq V] in
theorem tdVals_ok (fd : FloatDiv) {k : Nat} (hk : k ≤ 2 ^ 53) : sweepPoint fd (Sweep.prepare {} cfg.td) cfg.td k = some (tdVals fd cfg.td k) ∧
    stepValues cfg.td k (tdVals fd cfg.td k) := by
  obtain ⟨vals, h1, h2⟩ := td_point fd hc hk
  have : tdVals fd cfg.td k = vals := by rw [tdVals, h1]; rfl
  rw [this]
  exact ⟨h1, h2⟩

omit hc [DecidableEq V] in
/-- The states depend only on the attributes that are not time-dependent. -/
theorem freshT_congr (fd : FloatDiv) (hl : ∀ k ≤ 2 ^ 53, (tdVals fd cfg.td k).length = cfg.td.length) (ratio : Nat → V) (σ τ : P → V)
    (hσ : ∀ q, (∀ t ∈ cfg.tdTargets, q ∉ t) → σ q = τ q) : freshT cfg fd ratio steps rank σ = freshT cfg fd ratio steps rank τ := by
  simp only [freshT, h.count σ τ hσ]
  apply List.map_congr_left
  intro j hj
  have hj' : j ≤ 2 ^ 53 := by
    have := List.mem_range.1 hj
    have := h.few τ
    omega
  funext i
  rw [h.init i σ τ hσ]
  have : ∀ m ∈ List.range j, stepMat cfg fd ratio steps rank σ m i = stepMat cfg fd ratio steps rank τ m i := by
    intro m hm
    have := List.mem_range.1 hm
    rw [stepMat, stepMat, overwrite_congr _ _ σ τ (by rw [hl m (by omega), h.tdTargets]) hσ]
  congr 1
  exact List.foldl_ext _ _ _ fun s m hm => by rw [this m hm]

theorem pointT_good {filled : Bool} (hf : ListsOk cfg filled) (fd : FloatDiv) (ind : Nat) (st : St P V M) (hg : Good cfg.pr steps st)
    (vals : List V) (hv : sweepPoint fd (Sweep.prepare {} cfg.sweeps) cfg.sweeps ind = some vals) :
    ∃ f' st', pointT cfg fd ind filled st = some (freshT cfg fd st.ratio steps rank (overwrite cfg.targets vals st.σ), f', st') ∧
      ListsOk cfg f' ∧ Good cfg.pr steps st' ∧ st'.ratio = st.ratio ∧
      (∀ q, (∀ t ∈ cfg.tdTargets, q ∉ t) → st'.σ q = overwrite cfg.targets vals st.σ q) := by
  obtain ⟨g1, r1, s1⟩ := sweepAssign_good h.toNice cfg.targets vals st hg
  have hfew := h.few (sweepAssign cfg.pr cfg.targets vals st).σ
  obtain ⟨st2, e2, g2, r2, s2⟩ := evolveLoopT_good h fd
    (tdState filled (cfg.stepCount (sweepAssign cfg.pr cfg.targets vals st).σ) cfg.td) st.ratio (overwrite cfg.targets vals st.σ)
    (cfg.stepCount (sweepAssign cfg.pr cfg.targets vals st).σ) 0 (fun i => cfg.init i (sweepAssign cfg.pr cfg.targets vals st).σ) _
    (fun j _ hj => by
      have := tdVals_ok (cfg := cfg) hc fd (show j ≤ 2 ^ 53 by omega)
      exact ⟨by rw [tdState_point hf fd _ (by omega)]; exact this.1, sweepPoint_length this.1⟩)
    g1 r1 (fun q _ => by rw [s1])
  refine ⟨filled || decide (0 < cfg.stepCount (sweepAssign cfg.pr cfg.targets vals st).σ), st2, ?_, ?_, g2, r2, s2⟩
  · simp only [pointT, hv, e2]
    rw [s1]
    simp only [freshT, List.range_succ_eq_map (n := cfg.stepCount _), List.map_cons, List.map_map]
    congr 3
    · funext i
      simp
    · apply List.map_congr_left
      intro j _
      funext i
      simp [List.range_eq_range']
  · rcases hf with rfl | hf
    · exact Or.inl rfl
    · exact Or.inr hf

theorem seqPointsT_good (fd : FloatDiv) (σ : P → V) (ratio : Nat → V) :
    ∀ (l : List Nat) (filled : Bool) (st : St P V M), ListsOk cfg filled → Good cfg.pr steps st → st.ratio = ratio →
    (∀ q, (∀ t ∈ cfg.targets, q ∉ t) → (∀ t ∈ cfg.tdTargets, q ∉ t) → st.σ q = σ q) →
    ∀ vs : List (List V), l.map (fun ind => sweepPoint fd (Sweep.prepare {} cfg.sweeps) cfg.sweeps ind) = vs.map some →
    ∃ f' st', seqPointsT cfg fd l filled st = some (vs.map (fun v => freshT cfg fd ratio steps rank (overwrite cfg.targets v σ)), f', st') ∧
      ListsOk cfg f' ∧ Good cfg.pr steps st' ∧ st'.ratio = ratio ∧
      (∀ q, (∀ t ∈ cfg.targets, q ∉ t) → (∀ t ∈ cfg.tdTargets, q ∉ t) → st'.σ q = σ q)
  | [], filled, st, hf, hg, hr, hσ, vs, hv => by
    obtain rfl : vs = [] := by cases vs with | nil => rfl | cons => simp at hv
    exact ⟨filled, st, rfl, hf, hg, hr, hσ⟩
  | ind :: l, filled, st, hf, hg, hr, hσ, vs, hv => by
    cases vs with
    | nil => simp at hv
    | cons v vs =>
      simp only [List.map_cons, List.cons.injEq] at hv
      obtain ⟨f1, st1, e1, hf1, g1, r1, s1⟩ := pointT_good h hc hf fd ind st hg v hv.1
      have hlen : cfg.targets.length ≤ v.length := by rw [sweepPoint_length hv.1, h.targets]
      have ho : freshT cfg fd ratio steps rank (overwrite cfg.targets v st.σ) = freshT cfg fd ratio steps rank (overwrite cfg.targets v σ) :=
        freshT_congr h fd (fun k hk => sweepPoint_length (tdVals_ok (cfg := cfg) hc fd hk).1) _ _ _
          fun q hq => overwrite_at _ _ _ _ q hlen fun hq' => hσ q hq' hq
      have hσ1 : ∀ q, (∀ t ∈ cfg.targets, q ∉ t) → (∀ t ∈ cfg.tdTargets, q ∉ t) → st1.σ q = σ q := fun q hq hq' => by
        rw [s1 q hq', overwrite_off _ _ _ _ hq, hσ q hq hq']
      obtain ⟨f2, st2, e2, h2⟩ := seqPointsT_good fd σ ratio l f1 st1 hf1 g1 (r1.trans hr) hσ1 vs hv.2
      refine ⟨f2, st2, ?_, h2⟩
      simp only [seqPointsT, e1, e2, List.map_cons]
      rw [hr, ho]

theorem jobsT_good {filled : Bool} (hf : ListsOk cfg filled) (fd : FloatDiv) (st : St P V M) (hg : Good cfg.pr steps st) :
    ∀ (l : List Nat) (vs : List (List V)),
    l.map (fun ind => sweepPoint fd (Sweep.prepare {} cfg.sweeps) cfg.sweeps ind) = vs.map some →
    jobsT cfg fd filled st l = some (vs.map (fun v => freshT cfg fd st.ratio steps rank (overwrite cfg.targets v st.σ)))
  | [], vs, hv => by
    obtain rfl : vs = [] := by cases vs with | nil => rfl | cons => simp at hv
    rfl
  | ind :: l, vs, hv => by
    cases vs with
    | nil => simp at hv
    | cons v vs =>
      simp only [List.map_cons, List.cons.injEq] at hv
      obtain ⟨f1, st1, e1, -⟩ := pointT_good h hc hf fd ind st hg v hv.1
      simp only [jobsT, e1, jobsT_good hf fd st hg l vs hv.2, List.map_cons]

theorem runSeqT_fresh {filled : Bool} (hf : ListsOk cfg filled) (fd : FloatDiv) (i : Nat) (st : St P V M) (hg : Good cfg.pr steps st)
    (σ : P → V) (hσ : ∀ q, (∀ t ∈ cfg.targets, q ∉ t) → (∀ t ∈ cfg.tdTargets, q ∉ t) → st.σ q = σ q) (r : PyVal S)
    (e : runAll fd cfg.sweeps (fun v => stored i (freshT cfg fd st.ratio steps rank (overwrite cfg.targets v σ))) = some r) :
    ∃ f' st', runSeqT cfg fd i filled st = some (r, f', st') ∧ ListsOk cfg f' ∧ Good cfg.pr steps st' ∧ st'.ratio = st.ratio ∧
      (∀ q, (∀ t ∈ cfg.targets, q ∉ t) → (∀ t ∈ cfg.tdTargets, q ∉ t) → st'.σ q = σ q) := by
  obtain ⟨vs, e1, e2⟩ := runAll_points fd _ _ _ e
  obtain ⟨f', st', e3, h3⟩ := seqPointsT_good h hc fd σ st.ratio _ filled st hf hg rfl hσ vs e1
  refine ⟨f', st', ?_, h3⟩
  simp only [runSeqT, prepareAll_eq h.toNice cfg.protos h.deep st hg.1, e3, List.map_map]
  rw [show vs.map (stored i ∘ fun v => freshT cfg fd st.ratio steps rank (overwrite cfg.targets v σ)) =
    vs.map (fun v => stored i (freshT cfg fd st.ratio steps rank (overwrite cfg.targets v σ))) from rfl, e2]

theorem runParT_fresh {filled : Bool} (hf : ListsOk cfg filled) (fd : FloatDiv) (i : Nat) (st : St P V M) (hg : Good cfg.pr steps st)
    (r : PyVal S) (e : runAll fd cfg.sweeps (fun v => stored i (freshT cfg fd st.ratio steps rank (overwrite cfg.targets v st.σ))) = some r) :
    runParT cfg fd i filled st = some (r, filled, st) := by
  obtain ⟨vs, e1, e2⟩ := runAll_points fd _ _ _ e
  simp only [runParT, prepareAll_eq h.toNice cfg.protos h.deep st hg.1, jobsT_good h hc hf fd st hg _ vs e1, List.map_map]
  rw [show vs.map (stored i ∘ fun v => freshT cfg fd st.ratio steps rank (overwrite cfg.targets v st.σ)) =
    vs.map (fun v => stored i (freshT cfg fd st.ratio steps rank (overwrite cfg.targets v st.σ))) from rfl, e2]

end

end Verif.Whole
