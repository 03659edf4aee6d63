import Verif.Results.Lemmas2
import Verif.Sweep.Props
import Mathlib.Algebra.Order.Ring.Rat

/-!
# Properties C04, C05, C06 (parallel runs, re-runs, averages)
-/
namespace Verif.Results
open Verif.Sweep

variable {K α : Type}

/-! ## Specification -/

/-- What a user reads after a run: `resultsDict` and `states` of every result object (`QRes.py:124-132,175-183`). -/
def visible (st : Store K) : List (String × Dict String (PyVal K) × Dict String (PyVal K)) :=
  st.map fun p => (p.1, p.2.resultsLast, p.2.statesLast)

/-- Every sweep has its target parameter. -/
def Cfg.WF (cfg : Cfg K α) : Prop := cfg.targets.length = cfg.sweeps.length

/-- All jobs get finished: the completion order is a permutation of the jobs. -/
def Schedule (cfg : Cfg K α) (order : List Nat) : Prop :=
  order.Perm (List.range (prepare {} cfg.sweeps).indMultip)

/-- Earlier runs, one after another; `none` when one of them raised. -/
def history [Field K] (fd : FloatDiv) : List (Cfg K α × Option (List Nat) × Bool) → PState K α → Option (PState K α)
  | [], p => some p
  | (cfg, mode, b) :: rest, p => (run fd cfg mode b p).bind (history fd rest)

/-! ## C04 -/

/-- **C04 (results and states).** For every schedule a multi-process run yields the same results and states as the single
process run, and it raises exactly when the single process run raises. -/
theorem C04_parallel_eq_sequential_partial [Field K] (fd : FloatDiv) (cfg : Cfg K α) (hwf : cfg.WF) (order : List Nat)
    (ho : Schedule cfg order) (b : Bool) (p : PState K α) (hnd : (Dict.keys p.store).Nodup) :
    (run fd cfg (some order) b p).map (fun q => visible q.store)
      = (run fd cfg none b p).map (fun q => visible q.store) := by
  have hc : cfg.targets.length ≤ cfg.sweeps.length := le_of_eq hwf
  have h1 := paral_view fd cfg hc ⟨p.params, start b p.store⟩ (by simpa [keys_start] using hnd) order
    (fun i hi => ho.mem_iff.mpr (List.mem_range.mpr hi))
  have h2 := nonParal_view fd cfg hc ⟨p.params, start b p.store⟩ p.params (fun _ _ => rfl)
  have h3 := h1.trans h2.symm
  have hv : ∀ st : Store K, visible st = (view st).map fun q => (q.1, q.2.2.1, q.2.2.2) := by
    intro st; simp [visible, view]
  rw [run_eq, run_eq]
  simp only [hv]
  have := congrArg (Option.map (fun v : Dict String (Core K × Core K) => v.map fun q => (q.1, q.2.2.1, q.2.2.2))) h3
  simpa [Option.map_map, Function.comp_def] using this

/-- A two-point sweep with one result object: at each point one result, one average and one calculated value. -/
def demoCfg : Cfg ℚ ℚ where
  sweeps := [⟨[10, 20], false⟩]
  targets := ["freq"]
  sim := fun P => [("q", .calcd "c" (.atom (P "freq"))), ("q", .single "r" (.atom (P "freq"))),
    ("q", .single "r" (.atom (P "g"))), ("q", .avg "a" (P "g"))]

def demoState : PState ℚ ℚ := ⟨fun _ => 1, [("q", {})]⟩

example : demoCfg.WF ∧ Schedule demoCfg [1, 0] ∧ (Dict.keys demoState.store).Nodup := by
  refine ⟨rfl, ?_, by decide⟩
  exact List.Perm.swap 0 1 []

/-- The demo run succeeds and stores the expected nested results. -/
example : ((run Sweep.exactDiv demoCfg (some [1, 0]) true demoState).map fun q => visible q.store)
    = some [("q", [("r", .list [.list [.atom 10, .atom 1], .list [.atom 20, .atom 1]]),
                   ("a", .list [.atom 1, .atom 1])], [])] := by
  rfl

/-- **C04 (negation for `calculated`).** Whatever the callbacks store in `calculated` during a multi-process run (with
reset) is lost: afterwards every `calculated` dictionary is empty. -/
theorem C04_parallel_calculated_lost [Field K] (fd : FloatDiv) (cfg : Cfg K α) (order : List Nat) (p q : PState K α)
    (h : run fd cfg (some order) true p = some q) (n : String) (r : Res K) (hr : q.store.get? n = some r) :
    r.calculated = [] := by
  rw [run_eq] at h
  simp only [paral] at h
  cases hm : poolMap (job fd cfg ⟨p.params, start true p.store⟩) (prepare {} cfg.sweeps).indMultip order with
  | none => simp [hm] at h
  | some rs =>
    simp only [hm, Option.bind_some] at h
    cases ho : organiseMulti (start true p.store) rs with
    | none => simp [ho] at h
    | some st =>
      simp only [ho, Option.bind_some, Option.map_eq_some_iff] at h
      obtain ⟨st', hst, rfl⟩ := h
      exact NoCalc_finaliseAll _ _ _ (NoCalc_organiseMulti _ _ _ (NoCalc_reset p.store) ho) hst n r hr

/-- **C04 (negation, witness).** ... while the single process run of the same simulation keeps them. -/
theorem C04_calculated_differs :
    ((run Sweep.exactDiv demoCfg none true demoState).bind fun q => (q.store.get? "q").map (·.calculated))
        = some [("c", [.atom 10, .atom 20])] ∧
    ((run Sweep.exactDiv demoCfg (some [0, 1]) true demoState).bind fun q => (q.store.get? "q").map (·.calculated))
        = some [] := by
  constructor <;> rfl

/-! ## C05 -/

/-- **C05 (reset).** Whatever runs were made before (single or multi-process, with or without reset, with any sweeps of
parameters which are swept again), a run with `resetRes=True` ends with the same result store as if nothing had been run
before. -/
theorem C05_reset_run_independent_of_history [Field K] (fd : FloatDiv) (cfg : Cfg K α) (hwf : cfg.WF)
    (hist : List (Cfg K α × Option (List Nat) × Bool)) (hsub : ∀ h ∈ hist, h.1.targets ⊆ cfg.targets)
    (p p' : PState K α) (hp : history fd hist p = some p') (mode : Option (List Nat)) :
    (run fd cfg mode true p').map (·.store) = (run fd cfg mode true p).map (·.store) := by
  have key : Dict.keys p'.store = Dict.keys p.store ∧ ∀ s, s ∉ cfg.targets → p'.params s = p.params s := by
    induction hist generalizing p with
    | nil => simp only [history, Option.some.injEq] at hp; subst hp; exact ⟨rfl, fun _ _ => rfl⟩
    | cons h rest ih =>
      obtain ⟨c, m, b⟩ := h
      simp only [history] at hp
      cases hr : run fd c m b p with
      | none => simp [hr] at hp
      | some p1 =>
        simp only [hr, Option.bind_some] at hp
        obtain ⟨h1, h2⟩ := run_inv fd c m b p p1 hr
        obtain ⟨h3, h4⟩ := ih (fun x hx => hsub x (List.mem_cons_of_mem _ hx)) p1 hp
        refine ⟨h3.trans h1, fun s hs => ?_⟩
        rw [h4 s hs, h2 s (fun hm => hs (hsub (c, m, b) (by simp) hm))]
  apply run_agree fd cfg (le_of_eq hwf) mode true
  · exact key.2
  · exact reset_eq _ _ key.1

example : ∃ p', history Sweep.exactDiv [(demoCfg, none, true), (demoCfg, some [1, 0], true)] demoState = some p' ∧
    p'.params "freq" = 20 ∧ demoState.params "freq" = 1 := ⟨_, rfl, rfl, rfl⟩

/-- **C05 (negation for `resetRes=False`, lists).** Without sweeps, a run with `resetRes=False` replaces every earlier
result list by its first element: neither the earlier results nor the new ones are available. -/
theorem C05_noreset_truncates [Field K] (fd : FloatDiv) (cfg : Cfg K α) (hs : cfg.sweeps = []) (ht : cfg.targets = [])
    (mode : Option (List Nat)) (hm : ∀ o, mode = some o → Schedule cfg o) (p q : PState K α)
    (hnd : (Dict.keys p.store).Nodup) (hq : run fd cfg mode false p = some q)
    (n key : String) (r : Res K) (hr : p.store.get? n = some r) (x : PyVal K) (xs : List (PyVal K))
    (hk : r.results.get? key = some (.list (x :: xs))) :
    ∃ r', q.store.get? n = some r' ∧ r'.resultsLast.get? key = some x ∧ r'.results.get? key = some x := by
  have hc : cfg.targets.length ≤ cfg.sweeps.length := by simp [hs, ht]
  have hv : (coreLoop fd cfg (Dict.keys p.store) p.params (List.range (prepare {} cfg.sweeps).indMultip)
      (coreS p.store)).bind (finV (prepare {} cfg.sweeps).inds) = some (view q.store) := by
    rw [run_eq] at hq
    cases mode with
    | none =>
      have := nonParal_view fd cfg hc ⟨p.params, start false p.store⟩ p.params (fun _ _ => rfl)
      simp only at hq
      rw [hq] at this
      exact this.symm
    | some o =>
      have := paral_view fd cfg hc ⟨p.params, start false p.store⟩ hnd o
        (fun i hi => (hm o rfl).mem_iff.mpr (List.mem_range.mpr hi))
      simp only at hq
      rw [hq] at this
      exact this.symm
  cases hl : coreLoop fd cfg (Dict.keys p.store) p.params (List.range (prepare {} cfg.sweeps).indMultip)
      (coreS p.store) with
  | none => simp [hl] at hv
  | some c =>
    simp only [hl, Option.bind_some] at hv
    obtain ⟨cr', hcr', hext⟩ := coreLoop_extends fd cfg _ _ _ _ _ hl n (coreR r) (by
      simp only [coreS]; rw [get?_map coreR, hr]; rfl)
    obtain ⟨w, hw, hx⟩ := hext key _ hk
    obtain ⟨ys, rfl⟩ := hx
    obtain ⟨c', hc', hvn⟩ := finV_get? _ _ _ hv n cr' hcr'
    have hfst : c'.1.get? key = some x := by
      simp only [finC] at hc'
      cases hmv : mapValues (finaliseVal (prepare {} cfg.sweeps).inds) cr'.1 with
      | none => simp [hmv] at hc'
      | some res =>
        simp only [hmv, Option.bind_some, Option.map_eq_some_iff] at hc'
        obtain ⟨_, _, rfl⟩ := hc'
        simp only
        rw [mapValues_get? _ _ _ hmv, hw]
        simp [finaliseVal, finalise, hs, prepare]
    have hq' : ∃ r', q.store.get? n = some r' ∧ (r'.results, r'.states) = c' ∧ (r'.resultsLast, r'.statesLast) = c' := by
      have h := hvn
      simp only [view] at h
      rw [get?_map (fun r : Res K => ((r.results, r.states), (r.resultsLast, r.statesLast)))] at h
      simp only [Option.map_eq_some_iff, Prod.mk.injEq] at h
      obtain ⟨r', h1, h2, h3⟩ := h
      exact ⟨r', h1, h2, h3⟩
    obtain ⟨r', h1, h2, h3⟩ := hq'
    refine ⟨r', h1, ?_, ?_⟩
    · rw [← h3] at hfst; exact hfst
    · rw [← h2] at hfst; exact hfst

/-- A simulation without sweeps storing two numbers. -/
def plainCfg : Cfg ℚ ℚ where
  sweeps := []
  targets := []
  sim := fun P => [("q", .single "r" (.atom (P "g"))), ("q", .single "r" (.atom 7))]

/-- The first run stores `[1, 7]`; after the second one (`resetRes=False`) the result is the single number `1`. -/
example :
    ((run Sweep.exactDiv plainCfg none true demoState).bind fun q => (q.store.get? "q").map (·.results))
      = some [("r", .list [.atom 1, .atom 7])] ∧
    (((run Sweep.exactDiv plainCfg none true demoState).bind (run Sweep.exactDiv plainCfg none false)).bind fun q =>
      (q.store.get? "q").map (·.resultsLast)) = some [("r", .atom 1)] := by
  constructor <;> rfl

/-- **C05 (negation for `resetRes=False`, scalars).** If an earlier run left a scalar result (an average, or a truncated
list as above) then every later run with `resetRes=False` raises, whatever the sweeps. -/
theorem C05_noreset_scalar_raises [Field K] (fd : FloatDiv) (cfg : Cfg K α) (hwf : cfg.WF)
    (mode : Option (List Nat)) (hm : ∀ o, mode = some o → Schedule cfg o) (p : PState K α)
    (hnd : (Dict.keys p.store).Nodup) (n key : String) (r : Res K) (hr : p.store.get? n = some r) (x : K)
    (hk : r.results.get? key = some (.atom x)) :
    run fd cfg mode false p = none := by
  have hc : cfg.targets.length ≤ cfg.sweeps.length := le_of_eq hwf
  have main : (coreLoop fd cfg (Dict.keys p.store) p.params (List.range (prepare {} cfg.sweeps).indMultip)
      (coreS p.store)).bind (finV (prepare {} cfg.sweeps).inds) = none := by
    cases hl : coreLoop fd cfg (Dict.keys p.store) p.params (List.range (prepare {} cfg.sweeps).indMultip)
        (coreS p.store) with
    | none => rfl
    | some c =>
      simp only [Option.bind_some]
      obtain ⟨cr', hcr', hext⟩ := coreLoop_extends fd cfg _ _ _ _ _ hl n (coreR r) (by
        simp only [coreS]; rw [get?_map coreR, hr]; rfl)
      obtain ⟨w, hw, hx⟩ := hext key _ hk
      simp only [Extends] at hx
      subst hx
      cases hv : finV (prepare {} cfg.sweeps).inds c with
      | none => rfl
      | some v =>
        exfalso
        obtain ⟨c', hc', _⟩ := finV_get? _ _ _ hv n cr' hcr'
        simp only [finC] at hc'
        cases hmv : mapValues (finaliseVal (prepare {} cfg.sweeps).inds) cr'.1 with
        | none => simp [hmv] at hc'
        | some res =>
          have h1 := mapValues_get? _ _ _ hmv key
          rw [hw] at h1
          simp only [Option.bind_some, finaliseVal] at h1
          have h2 : key ∈ Dict.keys res := by
            rw [keys_mapValues _ _ _ hmv]; exact (Dict.mem_keys_iff _ _).mpr ⟨_, hw⟩
          obtain ⟨y, hy⟩ := (Dict.mem_keys_iff _ _).mp h2
          rw [h1] at hy; cases hy
  rw [run_eq]
  cases mode with
  | none =>
    have := nonParal_view fd cfg hc ⟨p.params, start false p.store⟩ p.params (fun _ _ => rfl)
    have h2 := this.trans main
    simpa using h2
  | some o =>
    have := paral_view fd cfg hc ⟨p.params, start false p.store⟩ hnd o
      (fun i hi => (hm o rfl).mem_iff.mpr (List.mem_range.mpr hi))
    have h2 := this.trans main
    simpa using h2

/-- A run that stores an average leaves a scalar, so the hypotheses of the last theorem are met after one run. -/
example :
    ((run Sweep.exactDiv { plainCfg with sim := fun _ => [("q", Op.avg "a" (3 : ℚ))] } none true demoState).bind
      fun q => (q.store.get? "q").map (·.results)) = some [("a", .atom 3)] := by
  rfl

/-! ## C06 -/

/-- **C06.** After `resAverage` has been used with the values `v₁ … vₙ` (`n ≥ 1`) under a key during one time evolution,
interleaved with arbitrary stores under other keys, the result of the key is the arithmetic mean. -/
theorem C06_running_average [Field K] [CharZero K] (key : String) (r r' : Res K) (ops : List (Op K))
    (hfresh : r.average.get? key = none) (hns : ∀ v, Op.single key v ∉ ops) (hne : averaged key ops ≠ [])
    (h : execOps r ops = some r') :
    r'.resultsLast.get? key = some (.atom ((averaged key ops).sum / (averaged key ops).length)) := by
  have := AvgInv_execOps key ops [] r r' (Or.inl ⟨rfl, hfresh⟩) hns h
  simp only [List.nil_append] at this
  rcases this with ⟨h1, _⟩ | ⟨_, _, h3⟩
  · exact absurd h1 hne
  · exact h3

/-- The hypothesis `hfresh` holds for every object at the beginning of each time evolution. -/
theorem C06_fresh_at_start (st : Store K) (n key : String) (r : Res K) (h : (resetLast st).get? n = some r) :
    r.average.get? key = none := by
  have h2 := (get?_map (fun r : Res K =>
    ({ r with resultsLast := [], statesLast := [], average := [] } : Res K)) st n).symm.trans h
  simp only [Option.map_eq_some_iff] at h2
  obtain ⟨_, _, rfl⟩ := h2
  rfl

example : (execOps ({} : Res ℚ) [.avg "a" 1, .single "b" (.atom 7), .avg "c" 5, .avg "a" 2, .avg "a" 6]).isSome ∧
    averaged "a" [.avg "a" (1 : ℚ), .single "b" (.atom 7), .avg "c" 5, .avg "a" 2, .avg "a" 6] = [1, 2, 6] := by
  constructor <;> rfl

end Verif.Results
