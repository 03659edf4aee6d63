import Verif.Results.Model
import Verif.Sweep.Lemmas2
import Mathlib.Data.List.Perm.Basic

/-! Helper lemmas for the result-storage model. -/
namespace Verif.Results
open Verif.Sweep

variable {K α : Type}

/-! ## Decomposition of a store into the collected part and the per-run part -/

/-- collected results and states of one object -/
abbrev Core (K : Type) := Dict String (PyVal K) × Dict String (PyVal K)
/-- per-run part of one object: resultsLast, average, statesLast -/
abbrev LastP (K : Type) := Dict String (PyVal K) × Dict String (K × Nat) × Dict String (PyVal K)

def coreR (r : Res K) : Core K := (r.results, r.states)
def lastR (r : Res K) : LastP K := (r.resultsLast, r.average, r.statesLast)
def coreS (st : Store K) : Dict String (Core K) := st.map fun p => (p.1, coreR p.2)
def lastS (st : Store K) : Dict String (LastP K) := st.map fun p => (p.1, lastR p.2)

/-- canonical object with a given per-run part -/
def ofLast (l : LastP K) : Res K := { resultsLast := l.1, average := l.2.1, statesLast := l.2.2 }

def execOpL [Field K] (l : LastP K) (o : Op K) : Option (LastP K) := (execOp (ofLast l) o).map lastR

theorem execOp_last [Field K] (r : Res K) (o : Op K) : (execOp r o).map lastR = execOpL (lastR r) o := by
  cases o with
  | single key v => simp [execOpL, execOp, ofLast, lastR, Option.map_map, Function.comp_def]
  | state key v => simp [execOpL, execOp, ofLast, lastR, Option.map_map, Function.comp_def]
  | calcd key v => simp [execOpL, execOp, ofLast, lastR]
  | avg key x =>
    simp only [execOpL, execOp, ofLast, lastR, resAverage, Option.map_some]
    cases r.average.get? key <;> rfl

theorem execOp_core [Field K] (r r' : Res K) (o : Op K) (h : execOp r o = some r') : coreR r' = coreR r := by
  cases o with
  | single key v =>
    simp only [execOp, Option.map_eq_some_iff] at h
    obtain ⟨d, _, rfl⟩ := h; rfl
  | state key v =>
    simp only [execOp, Option.map_eq_some_iff] at h
    obtain ⟨d, _, rfl⟩ := h; rfl
  | calcd key v => simp only [execOp, Option.some.injEq] at h; subst h; rfl
  | avg key x =>
    simp only [execOp, Option.some.injEq, resAverage] at h
    subst h
    cases r.average.get? key <;> rfl

theorem map_set {V W : Type} (f : V → W) (d : Dict String V) (k : String) (v : V) :
    (d.set k v).map (fun p => (p.1, f p.2)) = Dict.set (d.map (fun p => (p.1, f p.2))) k (f v) := by
  induction d with
  | nil => rfl
  | cons p rest ih =>
    obtain ⟨a, b⟩ := p
    by_cases h : a = k
    · simp [Dict.set, h]
    · simp [Dict.set, h, ih]

theorem get?_map {V W : Type} (f : V → W) (d : Dict String V) (k : String) :
    Dict.get? (d.map (fun p => (p.1, f p.2))) k = (d.get? k).map f := by
  induction d with
  | nil => rfl
  | cons p rest ih =>
    obtain ⟨a, b⟩ := p
    by_cases h : a = k
    · simp [Dict.get?, h]
    · simp [Dict.get?, h, ih]

theorem set_get? {V : Type} (d : Dict String V) (k : String) (v : V) (h : d.get? k = some v) : d.set k v = d := by
  induction d with
  | nil => simp [Dict.get?] at h
  | cons p rest ih =>
    obtain ⟨a, b⟩ := p
    by_cases e : a = k
    · simp [Dict.get?, e] at h; simp [Dict.set, e, h]
    · simp [Dict.get?, e] at h; simp [Dict.set, e, ih h]

def execL [Field K] : Dict String (LastP K) → List (String × Op K) → Option (Dict String (LastP K))
  | st, [] => some st
  | st, (n, o) :: os =>
    match st.get? n with
    | none => none
    | some r => (execOpL r o).bind (fun r' => execL (st.set n r') os)

theorem exec_last [Field K] (ops : List (String × Op K)) (st : Store K) :
    (exec st ops).map lastS = execL (lastS st) ops := by
  induction ops generalizing st with
  | nil => rfl
  | cons p os ih =>
    obtain ⟨n, o⟩ := p
    simp only [exec, execL, lastS, get?_map]
    cases hg : st.get? n with
    | none => rfl
    | some r =>
      simp only [Option.map_some, ← execOp_last]
      cases he : execOp r o with
      | none => rfl
      | some r' =>
        simp only [Option.bind_some, Option.map_some]
        rw [← map_set lastR, ← lastS, ← ih]

theorem exec_core [Field K] (ops : List (String × Op K)) (st st' : Store K) (h : exec st ops = some st') :
    coreS st' = coreS st := by
  induction ops generalizing st with
  | nil => simp [exec] at h; rw [h]
  | cons p os ih =>
    obtain ⟨n, o⟩ := p
    simp only [exec] at h
    cases hg : st.get? n with
    | none => simp [hg] at h
    | some r =>
      simp only [hg] at h
      cases he : execOp r o with
      | none => simp [he] at h
      | some r' =>
        simp only [he, Option.bind_some] at h
        rw [ih _ h]
        simp only [coreS]
        rw [map_set coreR, execOp_core r r' o he]
        apply set_get?
        rw [get?_map, hg]; rfl

theorem coreS_resetLast (st : Store K) : coreS (resetLast st) = coreS st := by
  simp [coreS, resetLast, coreR]

/-- the per-run part after `_resetLast`: only the names matter -/
def emptyLast (names : List String) : Dict String (LastP K) := names.map fun n => (n, ([], [], []))

theorem lastS_resetLast (st : Store K) : lastS (resetLast st) = emptyLast (Dict.keys st) := by
  simp [lastS, resetLast, lastR, emptyLast, Dict.keys]

/-! ## `_organise` on the decomposed stores -/

def orgC (c : Core K) (l : LastP K) : Option (Core K) :=
  (appendAll c.1 l.1).bind fun res => (appendAll c.2 l.2.2).map fun sts => (res, sts)

theorem organise_core (r : Res K) (l : LastP K) : (organise r l.1 l.2.2).map coreR = orgC (coreR r) l := by
  simp only [organise, orgC, coreR]
  cases appendAll r.results l.1 <;> simp [Option.map_map, Function.comp_def, coreR]

def orgL : Dict String (Core K) → Dict String (LastP K) → Option (Dict String (Core K))
  | [], _ => some []
  | (k, c) :: cs, (_, l) :: ls => (orgC c l).bind fun c' => (orgL cs ls).map fun r => (k, c') :: r
  | _ :: _, [] => none

theorem organiseSingle_core (st : Store K) : (organiseSingle st).map coreS = orgL (coreS st) (lastS st) := by
  induction st with
  | nil => rfl
  | cons p rest ih =>
    obtain ⟨n, r⟩ := p
    simp only [organiseSingle, mapValues, coreS, lastS, List.map_cons, orgL] at ih ⊢
    rw [← ih, ← organise_core r (lastR r)]
    simp only [lastR]
    cases organise r r.resultsLast r.statesLast with
    | none => rfl
    | some r' =>
      simp only [Option.bind_some, Option.map_some]
      cases mapValues (fun r : Res K => organise r r.resultsLast r.statesLast) rest <;> rfl

theorem get?_append {V : Type} (d e : Dict String V) (k : String) (h : k ∉ Dict.keys d) :
    Dict.get? (d ++ e) k = Dict.get? e k := by
  induction d with
  | nil => rfl
  | cons p rest ih =>
    obtain ⟨a, b⟩ := p
    simp only [Dict.keys, List.map_cons, List.mem_cons, not_or] at h
    have : ¬ a = k := fun e => h.1 e.symm
    simp [Dict.get?, this]
    exact ih h.2

theorem set_append {V : Type} (d e : Dict String V) (k : String) (v : V) (h : k ∉ Dict.keys d) :
    Dict.set (d ++ e) k v = d ++ Dict.set e k v := by
  induction d with
  | nil => rfl
  | cons p rest ih =>
    obtain ⟨a, b⟩ := p
    simp only [Dict.keys, List.map_cons, List.mem_cons, not_or] at h
    have : ¬ a = k := fun e => h.1 e.symm
    simp [Dict.set, this]
    exact ih h.2

theorem organiseJob_core (J : Store K) : ∀ (pre M : Store K), Dict.keys M = Dict.keys J →
    (Dict.keys (pre ++ M)).Nodup →
    (organiseJob (pre ++ M) J).map coreS = (orgL (coreS M) (lastS J)).map (fun c => coreS pre ++ c) := by
  induction J with
  | nil =>
    intro pre M hk _
    have : M = [] := by simpa [Dict.keys] using hk
    subst this
    simp [organiseJob, coreS, orgL]
  | cons p rest ih =>
    obtain ⟨n, r⟩ := p
    intro pre M hk hnd
    cases M with
    | nil => simp [Dict.keys] at hk
    | cons q M' =>
      obtain ⟨n', own⟩ := q
      simp only [Dict.keys, List.map_cons, List.cons.injEq] at hk
      obtain ⟨rfl, hk'⟩ := hk
      have hn : n' ∉ Dict.keys pre := by
        simp only [Dict.keys, List.map_append, List.map_cons] at hnd
        rw [List.nodup_append] at hnd
        intro hmem
        exact hnd.2.2 _ hmem _ (by simp) rfl
      simp only [organiseJob, get?_append _ _ _ hn, Dict.get?, if_true]
      simp only [coreS, lastS, List.map_cons, orgL, ← organise_core own (lastR r)]
      simp only [lastR]
      cases ho : organise own r.resultsLast r.statesLast with
      | none => rfl
      | some own' =>
        simp only [Option.bind_some, Option.map_some, set_append _ _ _ _ hn, Dict.set, if_true]
        have := ih (pre ++ [(n', own')]) M' hk' (by simpa [Dict.keys] using hnd)
        simp only [List.append_assoc, List.singleton_append] at this
        rw [this]
        simp only [coreS, lastS, lastR, List.map_append, List.map_cons, List.map_nil]
        cases orgL _ _ <;> simp

/-! ## `_finalise` -/

def view (st : Store K) : Dict String (Core K × Core K) :=
  st.map fun p => (p.1, (p.2.results, p.2.states), (p.2.resultsLast, p.2.statesLast))

def finC (inds : List Nat) (c : Core K) : Option (Core K) :=
  (mapValues (finaliseVal inds) c.1).bind fun res =>
    (mapValues (finaliseVal inds) c.2).map fun sts => (res, sts)

def finV (inds : List Nat) : Dict String (Core K) → Option (Dict String (Core K × Core K))
  | [] => some []
  | (n, c) :: cs => (finC inds c).bind fun c' => (finV inds cs).map fun r => (n, (c', c')) :: r

theorem finaliseAll_view (inds : List Nat) (st : Store K) :
    (finaliseAll inds st).map view = finV inds (coreS st) := by
  induction st with
  | nil => rfl
  | cons p rest ih =>
    obtain ⟨n, r⟩ := p
    simp only [finaliseAll, mapValues, coreS, List.map_cons, finV] at ih ⊢
    rw [← ih]
    simp only [finaliseRes, finC, coreR]
    cases mapValues (finaliseVal inds) r.results with
    | none => rfl
    | some a =>
      simp only [Option.bind_some]
      cases mapValues (finaliseVal inds) r.states with
      | none => rfl
      | some b =>
        simp only [Option.map_some, Option.bind_some]
        cases mapValues _ rest <;> rfl

/-! ## Parameters -/

theorem assign_agree (ts : List String) : ∀ (vs : List α) (p q : String → α), ts.length ≤ vs.length →
    (∀ s, s ∉ ts → p s = q s) → assign p ts vs = assign q ts vs := by
  induction ts with
  | nil => intro vs p q _ h; simp only [assign]; funext s; exact h s (by simp)
  | cons t ts ih =>
    intro vs p q hl h
    cases vs with
    | nil => simp at hl
    | cons v vs =>
      simp only [assign]
      apply ih _ _ _ (by simpa using hl)
      intro s hs
      by_cases e : s = t
      · simp [e]
      · simp only [e, if_false]; exact h s (by simp [e, hs])

theorem assign_off (ts : List String) : ∀ (vs : List α) (p : String → α) (s : String), s ∉ ts →
    assign p ts vs s = p s := by
  induction ts with
  | nil => intro vs p s _; rfl
  | cons t ts ih =>
    intro vs p s hs
    simp only [List.mem_cons, not_or] at hs
    cases vs with
    | nil => rfl
    | cons v vs => simp only [assign]; rw [ih _ _ _ hs.2]; simp [hs.1]

theorem runSweepLoop_length (l : List Nat) (sw : List (SweepObj α)) : ∀ (i : Nat) (vals : List α),
    runSweepLoop l i sw = some vals → vals.length = sw.length := by
  induction sw with
  | nil => intro i vals h; simp [runSweepLoop] at h; simp [← h]
  | cons s ss ih =>
    intro i vals h
    simp only [runSweepLoop] at h
    split at h
    · simp at h
    · split at h
      · simp at h
      · split at h
        · simp at h
        · rename_i vs hv
          simp at h; subst h
          simp [ih _ _ hv]

theorem sweepPoint_length (fd : FloatDiv) (sw : List (SweepObj α)) (ind : Nat) (vals : List α)
    (h : sweepPoint fd (prepare {} sw) sw ind = some vals) : vals.length = sw.length := by
  simp only [sweepPoint] at h
  split at h
  · split at h
    · simp at h
    · exact runSweepLoop_length _ _ _ _ h
  · next hc =>
    cases sw with
    | nil => simp at h; simp [← h]
    | cons s ss => rw [prepare_inds _ _ (by simp)] at hc; simp [axes] at hc

/-! ## One point, all points -/

/-- per-run part produced by point `ind` when the parameters off the swept ones are those of `p0` -/
def pointLast [Field K] (fd : FloatDiv) (cfg : Cfg K α) (names : List String) (p0 : String → α) (ind : Nat) :
    Option (Dict String (LastP K)) :=
  (sweepPoint fd (prepare {} cfg.sweeps) cfg.sweeps ind).bind fun vals =>
    execL (emptyLast names) (cfg.sim (assign p0 cfg.targets vals))

def coreLoop [Field K] (fd : FloatDiv) (cfg : Cfg K α) (names : List String) (p0 : String → α) :
    List Nat → Dict String (Core K) → Option (Dict String (Core K))
  | [], c => some c
  | i :: is, c => (pointLast fd cfg names p0 i).bind fun L => (orgL c L).bind fun c' => coreLoop fd cfg names p0 is c'

/-- two parameter stores agree off the swept parameters -/
def Agree (cfg : Cfg K α) (p q : String → α) : Prop := ∀ s, s ∉ cfg.targets → p s = q s

theorem keys_coreS (st : Store K) : Dict.keys (coreS st) = Dict.keys st := by
  simp [Dict.keys, coreS]

theorem keys_lastS (st : Store K) : Dict.keys (lastS st) = Dict.keys st := by
  simp [Dict.keys, lastS]

theorem keys_of_core {st st' : Store K} (h : coreS st' = coreS st) : Dict.keys st' = Dict.keys st := by
  rw [← keys_coreS, h, keys_coreS]

theorem runPoint_last [Field K] (fd : FloatDiv) (cfg : Cfg K α) (hc : cfg.targets.length ≤ cfg.sweeps.length)
    (ind : Nat) (p : PState K α) (p0 : String → α) (hp : Agree cfg p.params p0) :
    (runPoint fd cfg ind p).map (fun q => lastS q.store) = pointLast fd cfg (Dict.keys p.store) p0 ind := by
  simp only [runPoint, pointLast]
  cases hs : sweepPoint fd (prepare {} cfg.sweeps) cfg.sweeps ind with
  | none => rfl
  | some vals =>
    have hlen := sweepPoint_length fd cfg.sweeps ind vals hs
    have : assign p.params cfg.targets vals = assign p0 cfg.targets vals :=
      assign_agree _ _ _ _ (by omega) hp
    simp only [Option.bind_some, this, ← lastS_resetLast, ← exec_last, Option.map_map, Function.comp_def]

theorem runPoint_core [Field K] (fd : FloatDiv) (cfg : Cfg K α) (ind : Nat) (p q : PState K α)
    (h : runPoint fd cfg ind p = some q) :
    coreS q.store = coreS p.store ∧ ∀ s, s ∉ cfg.targets → q.params s = p.params s := by
  simp only [runPoint] at h
  cases hs : sweepPoint fd (prepare {} cfg.sweeps) cfg.sweeps ind with
  | none => simp [hs] at h
  | some vals =>
    simp only [hs, Option.bind_some, Option.map_eq_some_iff] at h
    obtain ⟨st, hst, rfl⟩ := h
    exact ⟨by rw [exec_core _ _ _ hst, coreS_resetLast], fun s hs => assign_off _ _ _ _ hs⟩

theorem keys_mapValues {V : Type} (f : V → Option V) : ∀ (d d' : Dict String V), mapValues f d = some d' →
    Dict.keys d' = Dict.keys d := by
  intro d
  induction d with
  | nil => intro d' h; simp [mapValues] at h; simp [h]
  | cons p rest ih =>
    obtain ⟨a, b⟩ := p
    intro d' h
    simp only [mapValues] at h
    cases hf : f b with
    | none => simp [hf] at h
    | some v =>
      simp only [hf, Option.bind_some, Option.map_eq_some_iff] at h
      obtain ⟨r, hr, rfl⟩ := h
      have := ih _ hr
      simp only [Dict.keys] at this
      simp [Dict.keys, this]

theorem seqLoop_core [Field K] (fd : FloatDiv) (cfg : Cfg K α) (hc : cfg.targets.length ≤ cfg.sweeps.length)
    (p0 : String → α) (is : List Nat) : ∀ (p : PState K α), Agree cfg p.params p0 →
    (seqLoop fd cfg is p).map (fun q => coreS q.store)
      = coreLoop fd cfg (Dict.keys p.store) p0 is (coreS p.store) := by
  induction is with
  | nil => intro p _; rfl
  | cons i is ih =>
    intro p hp
    simp only [seqLoop, coreLoop, ← runPoint_last fd cfg hc i p p0 hp]
    cases hr : runPoint fd cfg i p with
    | none => rfl
    | some q =>
      obtain ⟨hq1, hq2⟩ := runPoint_core fd cfg i p q hr
      simp only [Option.bind_some, Option.map_some]
      rw [← hq1, ← organiseSingle_core]
      cases ho : organiseSingle q.store with
      | none => rfl
      | some st =>
        simp only [Option.bind_some, Option.map_some]
        rw [ih ⟨q.params, st⟩ (fun s hs => by rw [← hp s hs]; exact hq2 s hs)]
        have hk : Dict.keys st = Dict.keys p.store := by
          rw [keys_mapValues _ _ _ ho, keys_of_core hq1]
        simp only [hk]

theorem orgL_keys : ∀ (c : Dict String (Core K)) (l : Dict String (LastP K)) (c' : Dict String (Core K)),
    orgL c l = some c' → Dict.keys c' = Dict.keys c := by
  intro c
  induction c with
  | nil => intro l c' h; simp [orgL] at h; simp [h]
  | cons p cs ih =>
    obtain ⟨k, c⟩ := p
    intro l c' h
    cases l with
    | nil => simp [orgL] at h
    | cons q ls =>
      simp only [orgL] at h
      cases ho : orgC c q.2 with
      | none => simp [ho] at h
      | some x =>
        simp only [ho, Option.bind_some, Option.map_eq_some_iff] at h
        obtain ⟨r, hr, rfl⟩ := h
        have := ih _ _ hr
        simp only [Dict.keys] at this
        simp [Dict.keys, this]

theorem organiseMulti_core [Field K] (fd : FloatDiv) (cfg : Cfg K α) (hc : cfg.targets.length ≤ cfg.sweeps.length)
    (p : PState K α) (is : List Nat) : ∀ (M : Store K), Dict.keys M = Dict.keys p.store → (Dict.keys M).Nodup →
    (organiseMulti M (is.map (job fd cfg p))).map coreS
      = coreLoop fd cfg (Dict.keys p.store) p.params is (coreS M) := by
  induction is with
  | nil => intro M _ _; rfl
  | cons i is ih =>
    intro M hk hnd
    have hl := runPoint_last fd cfg hc i p p.params (fun _ _ => rfl)
    simp only [List.map_cons, job, coreLoop, ← hl]
    cases hr : runPoint fd cfg i p with
    | none => rfl
    | some q =>
      have hq := (runPoint_core fd cfg i p q hr).1
      have hj := organiseJob_core q.store [] M (by rw [hk, keys_of_core hq]) (by simpa using hnd)
      simp only [List.nil_append, coreS, List.map_nil] at hj
      simp only [Option.map_some, organiseMulti, Option.bind_some]
      cases ho : organiseJob M q.store with
      | none =>
        rw [ho] at hj
        simp only [Option.map_none] at hj
        have : orgL (coreS M) (lastS q.store) = none := by
          have := hj.symm; rw [Option.map_eq_none_iff] at this; exact this
        rw [this]; rfl
      | some M' =>
        rw [ho] at hj
        have hM : orgL (coreS M) (lastS q.store) = some (coreS M') := by
          have := hj.symm
          rw [Option.map_some] at this
          simpa [coreS] using this
        rw [hM]
        simp only [Option.bind_some]
        have hkM : Dict.keys M' = Dict.keys M := by
          rw [← keys_coreS, orgL_keys _ _ _ hM, keys_coreS]
        rw [← ih M' (by rw [hkM, hk]) (by rw [hkM]; exact hnd)]

/-! ## `pool.map` -/

theorem poolSlots_get {R : Type} (f : Nat → R) (order : List Nat) : ∀ (slots : List (Option R)) (i : Nat),
    (poolSlots f order slots)[i]? = if i ∈ order ∧ i < slots.length then some (some (f i)) else slots[i]? := by
  induction order with
  | nil => intro slots i; simp [poolSlots]
  | cons a rest ih =>
    intro slots i
    have := ih (slots.set a (some (f a))) i
    simp only [poolSlots, List.foldl_cons] at this ⊢
    rw [this]
    simp only [List.length_set, List.mem_cons, List.getElem?_set]
    by_cases hi : i < slots.length
    · by_cases hr : i ∈ rest
      · simp [hi, hr]
      · by_cases e : a = i
        · subst e; simp [hi, hr]
        · have : ¬ i = a := fun h => e h.symm
          simp [hr, e, this]
    · simp [hi]; omega

theorem poolMap_eq {R : Type} (f : Nat → R) (n : Nat) (order : List Nat) (h : ∀ i, i < n → i ∈ order) :
    poolMap f n order = some ((List.range n).map f) := by
  have : poolSlots f order (List.replicate n none) = ((List.range n).map f).map some := by
    apply List.ext_getElem?
    intro i
    rw [poolSlots_get]
    by_cases hi : i < n
    · simp [h i hi, hi]
    · simp [hi]
  simp only [poolMap, this]
  induction (List.range n).map f with
  | nil => rfl
  | cons a l ih =>
    simp only [List.map_cons, List.mapM_cons]
    rw [ih]; rfl

end Verif.Results
