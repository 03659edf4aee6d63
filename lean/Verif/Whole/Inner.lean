import Verif.Whole.TimeSweep
import Verif.Cache.Stable
import Verif.Cache.OpenModel

/-!
# C83: time-dependent sweeps inside a protocol

Every protocol has a `timeDependency` of its own (`QPro.py:96-101`).  If it has sweeps, `_defGetUnitary` (`QPro.py:229-250`) goes through all
their values, and the unitary is the product of the unitaries made at each of them.  Simplifications: those of `Verif.Cache.Model`; the sweeps
have the default sweep function.
-/
namespace Verif.Whole
open Verif.Sweep Verif.Cache

variable {P V M : Type} [DecidableEq P] [DecidableEq V]

/-- Protocols with time-dependent sweeps. -/
structure IProg (P V M : Type) where
  pr : Prog P V M
  /-- `timeDependency.sweeps` of each protocol -/
  td : Nat → List (SweepObj V)
  /-- the attributes each of them assigns -/
  targets : Nat → List (List P)
  /-- `inds` and `indMultip` of each `timeDependency`; only `timeDependency.prepare()` sets them, which no function of the library calls for
  the `timeDependency` of a protocol -/
  ts : Nat → SweepState

/-- `len(self.timeDependency.sweeps) > 0` (`QPro.py:240`). -/
def IProg.has (o : IProg P V M) (i : Nat) : Bool := decide (0 < (o.td i).length)

/-- The values for repetition `k` (`QPro.py:246-247`); unlike in `modularSweep.py:70-72` also without `inds`. -/
def innerValues (o : IProg P V M) (fd : FloatDiv) (i k : Nat) : Option (List V) :=
  if o.has i then
    match indicesForSweep fd k (o.ts i).inds with
    | none => none
    | some l => runSweep (o.td i) l
  else some []

/-- The loop over the values (`QPro.py:244-248`), from repetition `k` on. -/
def innerLoop (o : IProg P V M) (fd : FloatDiv) (lim : Nat) (g : Nat → St P V M → Option (Option M × St P V M)) (i : Nat) :
    Nat → Nat → M → St P V M → Option (M × St P V M)
  | 0, _, acc, st => some (acc, st)
  | n + 1, k, acc, st =>
    match innerValues o fd i k with
    | none => none
    | some vals =>
      match create o.pr lim g i (sweepAssign o.pr (o.targets i) vals st) with
      | none => none
      | some (u, st) => innerLoop o fd lim g i n (k + 1) (o.pr.alg.mul u acc) st

/-- `_defGetUnitary` (`QPro.py:229-250`). -/
def defGetI (o : IProg P V M) (fd : FloatDiv) (lim : Nat) (g : Nat → St P V M → Option (Option M × St P V M)) (i : Nat) (st : St P V M) :
    Option (Option M × St P V M) :=
  match eff o.pr lim i st with
  | none => none
  | some (b, st) =>
    if (b && !o.pr.fixed i) || (!b && (st.mat i).isNone) then
      match innerLoop o fd lim g i (if o.has i then (o.ts i).indMultip else 1) 0 o.pr.alg.one st with
      | none => none
      | some (u, st) => let st := setMat st i (some u); some (st.mat i, st)
    else some (st.mat i, st)

/-- `getUnitary()` (`QPro.py:208-224`). -/
def getUI (o : IProg P V M) (fd : FloatDiv) : Nat → Nat → St P V M → Option (Option M × St P V M)
  | 0, _, _ => none
  | lim + 1, i, st => match setups o.pr (o.pr.upds i) st with
    | none => none
    | some (mems, st) => match defGetI o fd lim (getUI o fd lim) i st with
      | none => none
      | some (m, st) => match clear o.pr lim i (setbacks o.pr (o.pr.upds i) mems (setMat st i m)) with
        | none => none
        | some st => some (st.mat i, st)

/-- `unitary()` (`QPro.py:195-206`). -/
def unitaryI (o : IProg P V M) (fd : FloatDiv) (lim : Nat) (i : Nat) (st : St P V M) : Option (Option M × St P V M) :=
  unitaryOf o.pr lim (getUI o fd lim) i st

/-- Execute one command. -/
def execI (o : IProg P V M) (fd : FloatDiv) (lim : Nat) : OCmd P V → St P V M → Option (St P V M)
  | .assign p v, st => some (assign o.pr p v st)
  | .unitary i, st => (unitaryI o fd lim i st).map Prod.snd
  | .getUnitary i, st => (getUI o fd lim i st).map Prod.snd

/-- Execute several. -/
def runI (o : IProg P V M) (fd : FloatDiv) (lim : Nat) : List (OCmd P V) → St P V M → Option (St P V M)
  | [], st => some st
  | c :: cs, st => match execI o fd lim c st with
    | none => none
    | some st => runI o fd lim cs st

/-! ### Programs that differ in one protocol that is no step -/

/-- The programs differ in protocol `i₀` only. -/
structure Agree (i₀ : Nat) (pr' pr : Prog P V M) : Prop where
  alg : pr'.alg = pr.alg
  marks : pr'.marks = pr.marks
  upds : pr'.upds = pr.upds
  fixed : pr'.fixed = pr.fixed
  leaf : ∀ j, j ≠ i₀ → pr'.leaf j = pr.leaf j
  U : ∀ j, j ≠ i₀ → pr'.U j = pr.U j

section
variable {i₀ : Nat} {pr' pr : Prog P V M} (A : Agree i₀ pr' pr) {steps : Nat → List Ref}
include A

theorem assign_agree : assign pr' = assign pr := by
  funext p v st
  unfold assign
  rw [A.marks]

theorem runUpdate_agree : runUpdate pr' = runUpdate pr := by
  funext ps v st
  unfold runUpdate
  rw [assign_agree A]

theorem setups_agree (us : List (Upd P V)) (st : St P V M) : setups pr' us st = setups pr us st := by
  induction us generalizing st with
  | nil => rfl
  | cons u us ih =>
    have : setup pr' u st = setup pr u st := by unfold setup; rw [runUpdate_agree A]
    unfold setups
    rw [this]
    cases setup pr u st with
    | none => rfl
    | some x => dsimp only; rw [ih]

theorem setbacks_agree (us : List (Upd P V)) (ms : List V) (st : St P V M) : setbacks pr' us ms st = setbacks pr us ms st := by
  induction us generalizing ms st with
  | nil => cases ms <;> rfl
  | cons u us ih =>
    cases ms with
    | nil => rfl
    | cons m ms =>
      have : setback pr' u m st = setback pr u m st := by unfold setback; rw [runUpdate_agree A]
      show setbacks pr' us ms (setback pr' u m st) = setbacks pr us ms (setback pr u m st)
      rw [this, ih]

variable (top : ∀ j, ∀ r ∈ steps j, r.id ≠ i₀)
include top

theorem eff_agree : ∀ (lim j : Nat) (st : St P V M), j ≠ i₀ → st.steps = steps → eff pr' lim j st = eff pr lim j st := by
  intro lim
  induction lim with
  | zero => intros; rfl
  | succ lim ih =>
    intro j st hj hs
    have loop : ∀ (rs : List Ref), (∀ r ∈ rs, r.id ≠ i₀) → ∀ st : St P V M, st.steps = steps →
        effLoop (eff pr' lim) rs st = effLoop (eff pr lim) rs st := by
      intro rs
      induction rs with
      | nil => intros; rfl
      | cons r rs ihr =>
        intro hr st hs
        unfold effLoop
        rw [ih r.id st (hr r (by simp)) hs]
        cases e : eff pr lim r.id st with
        | none => rfl
        | some x =>
          obtain ⟨b, st1⟩ := x
          cases b with
          | true => rfl
          | false => exact ihr (fun r h => hr r (by simp [h])) st1 ((eff_spec pr steps lim _ _ _ _ hs e).1.same.steps.trans hs)
    unfold eff
    rw [A.leaf j hj, loop (st.steps j) (fun r h => top j r (hs ▸ h)) st hs]

theorem puGet_agree (lim : Nat) : ∀ (rs : List Ref), (∀ r ∈ rs, r.id ≠ i₀) → ∀ st : St P V M, st.steps = steps →
    puGet pr' lim rs st = puGet pr lim rs st := by
  intro rs
  induction rs with
  | nil => intros; rfl
  | cons r rs ih =>
    intro hr st hs
    unfold puGet
    rw [eff_agree A top lim r.id st (hr r (by simp)) hs]
    cases e : eff pr lim r.id st with
    | none => rfl
    | some x =>
      dsimp only
      rw [ih (fun r h => hr r (by simp [h])) x.2 ((eff_spec pr steps lim _ _ _ _ hs e).1.same.steps.trans hs)]

theorem clear_agree : ∀ (lim j : Nat) (st : St P V M), j ≠ i₀ → st.steps = steps → clear pr' lim j st = clear pr lim j st := by
  intro lim
  induction lim with
  | zero => intros; rfl
  | succ lim ih =>
    intro j st hj hs
    have loop : ∀ (l : List Nat), (∀ j ∈ l, j ≠ i₀) → ∀ (x : Option (St P V M)), (∀ st, x = some st → st.steps = steps) →
        l.foldl (fun (acc : Option (St P V M)) j => acc.bind fun st => clear pr' lim j st) x =
        l.foldl (fun (acc : Option (St P V M)) j => acc.bind fun st => clear pr lim j st) x := by
      intro l
      induction l with
      | nil => intros; rfl
      | cons k l ihl =>
        intro hl x hx
        rw [List.foldl_cons, List.foldl_cons]
        have : (x.bind fun st => clear pr' lim k st) = x.bind fun st => clear pr lim k st := by
          cases x with
          | none => rfl
          | some st => exact ih k st (hl k (by simp)) (hx st rfl)
        rw [this]
        apply ihl (fun j h => hl j (by simp [h]))
        intro st e
        cases x with
        | none => simp at e
        | some st1 => exact (clear_spec pr steps lim k _ _ (hx st1 rfl) e).1.steps.trans (hx st1 rfl)
    unfold clear
    dsimp only
    rw [A.leaf j hj, loop _ (fun k hk => ?_) _ (fun st' e => ?_)]
    · rw [show (setFlag st j false).steps = steps from hs] at hk
      exact top j _ (mem_origs.1 hk)
    · simp only [Option.some.injEq] at e
      rw [← e]
      exact hs

variable {lim : Nat} {g' g : Nat → St P V M → Option (Option M × St P V M)}
  (hg : ∀ j st, j ≠ i₀ → st.steps = steps → g' j st = g j st)
  (hk : ∀ i st r st', st.steps = steps → g i st = some (r, st') → r = st'.mat i ∧ Keep pr steps st st')
include hg

theorem unitaryOf_agree (j : Nat) (st : St P V M) (hj : j ≠ i₀) (hs : st.steps = steps) :
    unitaryOf pr' lim g' j st = unitaryOf pr lim g j st := by
  unfold unitaryOf
  rw [eff_agree A top lim j st hj hs]
  cases e : eff pr lim j st with
  | none => rfl
  | some x =>
    dsimp only
    rw [hg j x.2 hj ((eff_spec pr steps lim _ _ _ _ hs e).1.same.steps.trans hs), A.fixed]

theorem getRef_agree (r : Ref) (st : St P V M) (hr : r.id ≠ i₀) (hs : st.steps = steps) :
    getRef pr' lim g' r st = getRef pr lim g r st := by
  cases r with
  | orig j => exact hg j st hr hs
  | copy j hc =>
    have : hcOf pr' j = hcOf pr j := by
      funext st
      unfold hcOf
      rw [A.alg]
    unfold getRef
    dsimp only
    rw [unitaryOf_agree A top hg j st hr hs, this]

include hk

theorem createLoop_agree (i : Nat) : ∀ (rs : List Ref), (∀ r ∈ rs, r ∈ steps i) → ∀ (acc : M) (st : St P V M), st.steps = steps →
    createLoop pr' lim g' rs acc st = createLoop pr lim g rs acc st := by
  intro rs
  induction rs with
  | nil => intros; rfl
  | cons r rs ih =>
    intro hm acc st hs
    unfold createLoop
    rw [puGet_agree A top lim rs (fun r h => top i r (hm r (by simp [h]))) st hs]
    cases e : puGet pr lim rs st with
    | none => rfl
    | some x =>
      obtain ⟨vals, st1⟩ := x
      have hs1 := (puGet_spec pr steps lim _ _ _ _ hs e).1.same.steps.trans hs
      dsimp only
      rw [getRef_agree A top hg r st1 (top i r (hm r (by simp))) hs1]
      cases e2 : getRef pr lim g r st1 with
      | none => rfl
      | some y =>
        obtain ⟨m, st2⟩ := y
        cases m with
        | none => rfl
        | some u =>
          dsimp only
          have k2 := getRef_keep hk i r (hm r (by simp)) st1 _ st2 hs1 e2
          rw [A.alg, ih (fun r h => hm r (by simp [h])) _ _ ((puSet_frame rs vals st2).2.1.trans (k2.steps.trans hs1))]

theorem create_agree (j : Nat) (st : St P V M) (hj : j ≠ i₀) (hs : st.steps = steps) : create pr' lim g' j st = create pr lim g j st := by
  unfold create
  rw [A.leaf j hj, A.U j hj, A.alg, createLoop_agree A top hg hk j _ (fun r h => hs ▸ h) _ _ hs]

theorem defGet_agree (j : Nat) (st : St P V M) (hj : j ≠ i₀) (hs : st.steps = steps) : defGet pr' lim g' j st = defGet pr lim g j st := by
  unfold defGet
  rw [eff_agree A top lim j st hj hs]
  cases e : eff pr lim j st with
  | none => rfl
  | some x =>
    dsimp only
    rw [create_agree A top hg hk j x.2 hj ((eff_spec pr steps lim _ _ _ _ hs e).1.same.steps.trans hs), A.alg, A.fixed]

end

theorem sweepAssign_nil (pr : Prog P V M) (ts : List (List P)) (st : St P V M) : sweepAssign pr ts [] st = st := by cases ts <;> rfl

section
variable {i₀ : Nat} {pr' pr : Prog P V M} (A : Agree i₀ pr' pr) {steps : Nat → List Ref} (top : ∀ j, ∀ r ∈ steps j, r.id ≠ i₀)
include A top

/-- `_defGetUnitary` keeps the steps. -/
theorem defGet_steps (lim j : Nat) (st : St P V M) (hs : st.steps = steps) (m : Option M) (st' : St P V M)
    (e : defGet pr lim (getU pr lim) j st = some (m, st')) : st'.steps = steps := by
  unfold defGet at e
  split at e
  · simp at e
  rename_i b st1 e1
  have hs1 := (eff_spec pr steps lim _ _ _ _ hs e1).1.same.steps.trans hs
  split at e
  · split at e
    · simp at e
    rename_i u st2 e2
    simp only [Option.some.injEq, Prod.mk.injEq] at e
    rw [← e.2]
    show st2.steps = steps
    unfold create at e2
    split at e2
    · simp only [Option.some.injEq, Prod.mk.injEq] at e2
      rw [← e2.2]
      exact hs1
    · exact (createLoop_keep (fun i st r st' a b => getU_keep lim i st r st' a b) j _ (fun r h => hs1 ▸ h) _ _ _ _ hs1 e2).steps.trans hs1
  · simp only [Option.some.injEq, Prod.mk.injEq] at e
    rw [← e.2]
    exact hs1

theorem getU_agree : ∀ (lim j : Nat) (st : St P V M), j ≠ i₀ → st.steps = steps → getU pr' lim j st = getU pr lim j st := by
  intro lim
  induction lim with
  | zero => intros; rfl
  | succ lim ih =>
    intro j st hj hs
    unfold getU
    rw [A.upds, setups_agree A]
    cases e : setups pr (pr.upds j) st with
    | none => rfl
    | some x =>
      obtain ⟨ms, st1⟩ := x
      have hs1 : st1.steps = steps := (setups_shift _ _ _ _ e).steps.trans hs
      dsimp only
      rw [defGet_agree A top ih (fun i st r st' a b => getU_keep lim i st r st' a b) j st1 hj hs1]
      cases e2 : defGet pr lim (getU pr lim) j st1 with
      | none => rfl
      | some y =>
        obtain ⟨m, st2⟩ := y
        dsimp only
        have hs2 := defGet_steps A top lim j st1 hs1 m st2 e2
        rw [setbacks_agree A, clear_agree A top lim j (setbacks pr (pr.upds j) ms (setMat st2 j m)) hj
          ((setbacks_shift (pr := pr) (pr.upds j) ms (setMat st2 j m)).steps.trans hs2)]

end

/-- Without time-dependent sweeps a protocol is as in `Verif.Cache.Model`. -/
theorem getUI_agree {o : IProg P V M} {steps : Nat → List Ref} {i₀ : Nat} (fd : FloatDiv) (only : ∀ j, j ≠ i₀ → o.td j = [])
    (top : ∀ j, ∀ r ∈ steps j, r.id ≠ i₀) : ∀ (lim j : Nat) (st : St P V M), j ≠ i₀ → st.steps = steps →
      getUI o fd lim j st = getU o.pr lim j st := by
  have A : Agree i₀ o.pr o.pr := ⟨rfl, rfl, rfl, rfl, fun _ _ => rfl, fun _ _ => rfl⟩
  intro lim
  induction lim with
  | zero => intros; rfl
  | succ lim ih =>
    intro j st hj hs
    have hd : ∀ st, defGetI o fd lim (getUI o fd lim) j st = defGet o.pr lim (getUI o fd lim) j st := by
      intro st
      have hh : o.has j = false := by simp [IProg.has, only j hj]
      unfold defGetI defGet
      cases eff o.pr lim j st with
      | none => rfl
      | some x =>
        simp only [hh, Bool.false_eq_true, if_false, innerLoop, innerValues, sweepAssign_nil]
        split
        · cases create o.pr lim (getUI o fd lim) j x.2 <;> rfl
        · rfl
    unfold getUI getU
    cases e : setups o.pr (o.pr.upds j) st with
    | none => rfl
    | some x =>
      dsimp only
      rw [hd, defGet_agree A top ih (fun i st r st' a b => getU_keep lim i st r st' a b) j x.2 hj
        ((setups_shift _ _ _ _ (show setups o.pr (o.pr.upds j) st = some (x.1, x.2) from e)).steps.trans hs)]
      cases defGet o.pr lim (getU o.pr lim) j x.2 <;> rfl

end Verif.Whole
