import Verif.Results.Lemmas
import Mathlib.Algebra.Field.Basic
import Mathlib.Algebra.CharZero.Defs
import Mathlib.Tactic.FieldSimp
import Mathlib.Tactic.Ring

/-! Helper lemmas, second part: whole runs, averages. -/
namespace Verif.Results
open Verif.Sweep

variable {K α : Type}

/-- the store a run starts from -/
def start (b : Bool) (st : Store K) : Store K := if b then reset st else st

theorem keys_start (b : Bool) (st : Store K) : Dict.keys (start b st) = Dict.keys st := by
  cases b <;> simp [start, reset, Dict.keys]

theorem run_eq [Field K] (fd : FloatDiv) (cfg : Cfg K α) (mode : Option (List Nat)) (b : Bool) (p : PState K α) :
    run fd cfg mode b p = match mode with
      | none => nonParal fd cfg ⟨p.params, start b p.store⟩
      | some order => paral fd cfg order ⟨p.params, start b p.store⟩ := by
  cases b <;> rfl

theorem nonParal_view [Field K] (fd : FloatDiv) (cfg : Cfg K α) (hc : cfg.targets.length ≤ cfg.sweeps.length)
    (p : PState K α) (p0 : String → α) (hp : Agree cfg p.params p0) :
    (nonParal fd cfg p).map (fun q => view q.store)
      = (coreLoop fd cfg (Dict.keys p.store) p0 (List.range (prepare {} cfg.sweeps).indMultip) (coreS p.store)).bind
          (finV (prepare {} cfg.sweeps).inds) := by
  simp only [nonParal]
  rw [← seqLoop_core fd cfg hc p0 _ p hp]
  cases seqLoop fd cfg (List.range (prepare {} cfg.sweeps).indMultip) p with
  | none => rfl
  | some q =>
    simp only [Option.bind_some, Option.map_some, Option.map_map, Function.comp_def]
    rw [← finaliseAll_view]

theorem paral_view [Field K] (fd : FloatDiv) (cfg : Cfg K α) (hc : cfg.targets.length ≤ cfg.sweeps.length)
    (p : PState K α) (hnd : (Dict.keys p.store).Nodup) (order : List Nat)
    (ho : ∀ i, i < (prepare {} cfg.sweeps).indMultip → i ∈ order) :
    (paral fd cfg order p).map (fun q => view q.store)
      = (coreLoop fd cfg (Dict.keys p.store) p.params (List.range (prepare {} cfg.sweeps).indMultip)
          (coreS p.store)).bind (finV (prepare {} cfg.sweeps).inds) := by
  simp only [paral]
  rw [poolMap_eq _ _ _ ho, Option.bind_some, ← organiseMulti_core fd cfg hc p _ p.store rfl hnd]
  cases organiseMulti p.store (List.map (job fd cfg p) (List.range (prepare {} cfg.sweeps).indMultip)) with
  | none => rfl
  | some q =>
    simp only [Option.bind_some, Option.map_some, Option.map_map, Function.comp_def]
    rw [← finaliseAll_view]

/-! ## Re-runs -/

theorem runPoint_agree [Field K] (fd : FloatDiv) (cfg : Cfg K α) (hc : cfg.targets.length ≤ cfg.sweeps.length)
    (ind : Nat) (st : Store K) (a b : String → α) (h : Agree cfg a b) :
    runPoint fd cfg ind ⟨a, st⟩ = runPoint fd cfg ind ⟨b, st⟩ := by
  simp only [runPoint]
  cases hs : sweepPoint fd (prepare {} cfg.sweeps) cfg.sweeps ind with
  | none => rfl
  | some vals =>
    have hlen := sweepPoint_length fd cfg.sweeps ind vals hs
    simp only [Option.bind_some, assign_agree cfg.targets vals a b (by omega) h]

theorem seqLoop_agree [Field K] (fd : FloatDiv) (cfg : Cfg K α) (hc : cfg.targets.length ≤ cfg.sweeps.length)
    (is : List Nat) (st : Store K) (a b : String → α) (h : Agree cfg a b) :
    (seqLoop fd cfg is ⟨a, st⟩).map (·.store) = (seqLoop fd cfg is ⟨b, st⟩).map (·.store) := by
  cases is with
  | nil => rfl
  | cons i is => simp only [seqLoop, runPoint_agree fd cfg hc i st a b h]

theorem job_agree [Field K] (fd : FloatDiv) (cfg : Cfg K α) (hc : cfg.targets.length ≤ cfg.sweeps.length)
    (st : Store K) (a b : String → α) (h : Agree cfg a b) :
    job fd cfg ⟨a, st⟩ = job fd cfg ⟨b, st⟩ := by
  funext i
  simp only [job, runPoint_agree fd cfg hc i st a b h]

theorem run_agree [Field K] (fd : FloatDiv) (cfg : Cfg K α) (hc : cfg.targets.length ≤ cfg.sweeps.length)
    (mode : Option (List Nat)) (b : Bool) (p q : PState K α) (hp : Agree cfg p.params q.params)
    (hst : start b p.store = start b q.store) :
    (run fd cfg mode b p).map (·.store) = (run fd cfg mode b q).map (·.store) := by
  rw [run_eq, run_eq, hst]
  cases mode with
  | none =>
    have := seqLoop_agree fd cfg hc (List.range (prepare {} cfg.sweeps).indMultip) (start b q.store) _ _ hp
    simp only [nonParal]
    cases h1 : seqLoop fd cfg (List.range (prepare {} cfg.sweeps).indMultip) ⟨p.params, start b q.store⟩ <;>
    cases h2 : seqLoop fd cfg (List.range (prepare {} cfg.sweeps).indMultip) ⟨q.params, start b q.store⟩ <;>
    simp [h1, h2] at this
    · simp
    · simp [this, Option.map_map, Function.comp_def]
  | some order =>
    simp only [paral, job_agree fd cfg hc (start b q.store) _ _ hp]
    cases poolMap (job fd cfg ⟨q.params, start b q.store⟩) (prepare {} cfg.sweeps).indMultip order with
    | none => rfl
    | some rs =>
      simp only [Option.bind_some]
      cases organiseMulti (start b q.store) rs with
      | none => rfl
      | some st => simp [Option.map_map, Function.comp_def]

theorem keys_exec [Field K] (ops : List (String × Op K)) (st st' : Store K) (h : exec st ops = some st') :
    Dict.keys st' = Dict.keys st := keys_of_core (exec_core ops st st' h)

theorem seqLoop_inv [Field K] (fd : FloatDiv) (cfg : Cfg K α) (is : List Nat) : ∀ (p q : PState K α),
    seqLoop fd cfg is p = some q → Dict.keys q.store = Dict.keys p.store ∧
      ∀ s, s ∉ cfg.targets → q.params s = p.params s := by
  induction is with
  | nil => intro p q h; simp [seqLoop] at h; simp [h]
  | cons i is ih =>
    intro p q h
    simp only [seqLoop] at h
    cases hr : runPoint fd cfg i p with
    | none => simp [hr] at h
    | some p' =>
      simp only [hr, Option.bind_some] at h
      cases ho : organiseSingle p'.store with
      | none => simp [ho] at h
      | some st =>
        simp only [ho, Option.bind_some] at h
        obtain ⟨h1, h2⟩ := ih _ _ h
        obtain ⟨h3, h4⟩ := runPoint_core fd cfg i p p' hr
        refine ⟨?_, fun s hs => by rw [h2 s hs]; exact h4 s hs⟩
        rw [h1]; exact (keys_mapValues _ _ _ ho).trans (keys_of_core h3)

theorem keys_organiseJob : ∀ (J st st' : Store K), organiseJob st J = some st' → Dict.keys st' = Dict.keys st := by
  intro J
  induction J with
  | nil => intro st st' h; simp [organiseJob] at h; rw [h]
  | cons p rest ih =>
    obtain ⟨n, r⟩ := p
    intro st st' h
    simp only [organiseJob] at h
    cases hg : st.get? n with
    | none => simp [hg] at h
    | some own =>
      simp only [hg] at h
      cases ho : organise own r.resultsLast r.statesLast with
      | none => simp [ho] at h
      | some own' =>
        simp only [ho, Option.bind_some] at h
        rw [ih _ _ h, Dict.keys_set, if_pos ((Dict.mem_keys_iff st n).mpr ⟨_, hg⟩)]

theorem keys_organiseMulti : ∀ (rs : List (Option (Store K))) (st st' : Store K),
    organiseMulti st rs = some st' → Dict.keys st' = Dict.keys st := by
  intro rs
  induction rs with
  | nil => intro st st' h; simp [organiseMulti] at h; rw [h]
  | cons r rest ih =>
    intro st st' h
    cases r with
    | none => simp [organiseMulti] at h
    | some r =>
      simp only [organiseMulti] at h
      cases ho : organiseJob st r with
      | none => simp [ho] at h
      | some st1 =>
        simp only [ho, Option.bind_some] at h
        rw [ih _ _ h, keys_organiseJob _ _ _ ho]

theorem run_inv [Field K] (fd : FloatDiv) (cfg : Cfg K α) (mode : Option (List Nat)) (b : Bool) (p q : PState K α)
    (h : run fd cfg mode b p = some q) :
    Dict.keys q.store = Dict.keys p.store ∧ ∀ s, s ∉ cfg.targets → q.params s = p.params s := by
  rw [run_eq] at h
  cases mode with
  | none =>
    simp only [nonParal] at h
    cases hs : seqLoop fd cfg (List.range (prepare {} cfg.sweeps).indMultip) ⟨p.params, start b p.store⟩ with
    | none => simp [hs] at h
    | some p' =>
      simp only [hs, Option.bind_some, Option.map_eq_some_iff] at h
      obtain ⟨st, hst, rfl⟩ := h
      obtain ⟨h1, h2⟩ := seqLoop_inv fd cfg _ _ _ hs
      refine ⟨?_, h2⟩
      simp only [keys_mapValues _ _ _ hst, h1, keys_start]
  | some order =>
    simp only [paral] at h
    cases hm : poolMap (job fd cfg ⟨p.params, start b p.store⟩) (prepare {} cfg.sweeps).indMultip order with
    | none => simp [hm] at h
    | some rs =>
      simp only [hm, Option.bind_some] at h
      cases ho : organiseMulti (start b p.store) rs with
      | none => simp [ho] at h
      | some st =>
        simp only [ho, Option.bind_some, Option.map_eq_some_iff] at h
        obtain ⟨st', hst, rfl⟩ := h
        exact ⟨by simp only [keys_mapValues _ _ _ hst, keys_organiseMulti _ _ _ ho, keys_start], fun _ _ => rfl⟩

theorem reset_eq (st st' : Store K) (h : Dict.keys st = Dict.keys st') : reset st = reset st' := by
  have : ∀ s : Store K, reset s = (Dict.keys s).map fun n => (n, ({} : Res K)) := by
    intro s; simp [reset, Dict.keys]
  rw [this, this, h]

/-! ## Re-runs without reset -/

theorem mapValues_get? {V : Type} (f : V → Option V) : ∀ (d d' : Dict String V), mapValues f d = some d' →
    ∀ k, d'.get? k = (d.get? k).bind f := by
  intro d
  induction d with
  | nil => intro d' h k; simp [mapValues] at h; simp [h]
  | cons p rest ih =>
    obtain ⟨a, b⟩ := p
    intro d' h k
    simp only [mapValues] at h
    cases hf : f b with
    | none => simp [hf] at h
    | some v =>
      simp only [hf, Option.bind_some, Option.map_eq_some_iff] at h
      obtain ⟨r, hr, rfl⟩ := h
      by_cases e : a = k
      · simp [Dict.get?, e, hf]
      · simp [Dict.get?, e, ih _ hr]

/-- a list value keeps its beginning, an atom stays an atom -/
def Extends : PyVal K → PyVal K → Prop
  | .list l, v => ∃ ys, v = .list (l ++ ys)
  | .atom x, v => v = .atom x

theorem Extends.refl (v : PyVal K) : Extends v v := by
  cases v with
  | atom x => rfl
  | list l => exact ⟨[], by simp⟩

theorem Extends.trans {u v w : PyVal K} (h : Extends u v) (h' : Extends v w) : Extends u w := by
  cases u with
  | atom x => simp only [Extends] at h; subst h; exact h'
  | list l =>
    obtain ⟨ys, rfl⟩ := h
    obtain ⟨zs, rfl⟩ := h'
    exact ⟨ys ++ zs, by simp⟩

theorem appendTo_extends (d d' : Dict String (PyVal K)) (k : String) (v : PyVal K) (h : appendTo d k v = some d')
    (key : String) (u : PyVal K) (hu : d.get? key = some u) : ∃ w, d'.get? key = some w ∧ Extends u w := by
  simp only [appendTo] at h
  split at h
  · next hn =>
    simp at h; subst h
    have : k ≠ key := by rintro rfl; rw [hn] at hu; cases hu
    exact ⟨u, by rw [Dict.get?_set_ne _ _ _ _ this, hu], Extends.refl u⟩
  · next l hl =>
    simp at h; subst h
    by_cases e : k = key
    · subst e
      rw [hl] at hu; cases hu
      exact ⟨_, Dict.get?_set_self _ _ _, ⟨[v], rfl⟩⟩
    · exact ⟨u, by rw [Dict.get?_set_ne _ _ _ _ e, hu], Extends.refl u⟩
  · simp at h

theorem appendAll_extends : ∀ (last full full' : Dict String (PyVal K)), appendAll full last = some full' →
    ∀ (key : String) (u : PyVal K), full.get? key = some u → ∃ w, full'.get? key = some w ∧ Extends u w := by
  intro last
  induction last with
  | nil => intro full full' h key u hu; simp [appendAll] at h; subst h; exact ⟨u, hu, Extends.refl u⟩
  | cons p rest ih =>
    obtain ⟨k, v⟩ := p
    intro full full' h key u hu
    simp only [appendAll] at h
    cases ha : appendTo full k v with
    | none => simp [ha] at h
    | some f1 =>
      simp only [ha, Option.bind_some] at h
      obtain ⟨w, hw, he⟩ := appendTo_extends _ _ _ _ ha key u hu
      obtain ⟨w', hw', he'⟩ := ih _ _ h key w hw
      exact ⟨w', hw', he.trans he'⟩

theorem orgL_extends : ∀ (c : Dict String (Core K)) (l : Dict String (LastP K)) (c' : Dict String (Core K)),
    orgL c l = some c' → ∀ n cr, c.get? n = some cr → ∃ cr', c'.get? n = some cr' ∧
      ∀ key u, cr.1.get? key = some u → ∃ w, cr'.1.get? key = some w ∧ Extends u w := by
  intro c
  induction c with
  | nil => intro l c' _ n cr h; simp at h
  | cons p cs ih =>
    obtain ⟨k, c⟩ := p
    intro l c' h n cr hn
    cases l with
    | nil => simp [orgL] at h
    | cons q ls =>
      simp only [orgL] at h
      cases ho : orgC c q.2 with
      | none => simp [ho] at h
      | some x =>
        simp only [ho, Option.bind_some, Option.map_eq_some_iff] at h
        obtain ⟨r, hr, rfl⟩ := h
        by_cases e : k = n
        · subst e
          simp only [Dict.get?, if_true, Option.some.injEq] at hn ⊢
          subst hn
          refine ⟨x, rfl, ?_⟩
          intro key u hu
          simp only [orgC] at ho
          cases hra : appendAll c.1 q.2.1 with
          | none => simp [hra] at ho
          | some res =>
            simp only [hra, Option.bind_some, Option.map_eq_some_iff] at ho
            obtain ⟨_, _, rfl⟩ := ho
            exact appendAll_extends _ _ _ hra key u hu
        · simp only [Dict.get?, e, if_false] at hn ⊢
          exact ih _ _ hr n cr hn

theorem coreLoop_extends [Field K] (fd : FloatDiv) (cfg : Cfg K α) (names : List String) (p0 : String → α) :
    ∀ (is : List Nat) (c c' : Dict String (Core K)), coreLoop fd cfg names p0 is c = some c' →
      ∀ n cr, c.get? n = some cr → ∃ cr', c'.get? n = some cr' ∧
      ∀ key u, cr.1.get? key = some u → ∃ w, cr'.1.get? key = some w ∧ Extends u w := by
  intro is
  induction is with
  | nil =>
    intro c c' h n cr hn
    simp [coreLoop] at h; subst h
    exact ⟨cr, hn, fun key u hu => ⟨u, hu, Extends.refl u⟩⟩
  | cons i is ih =>
    intro c c' h n cr hn
    simp only [coreLoop] at h
    cases hl : pointLast fd cfg names p0 i with
    | none => simp [hl] at h
    | some L =>
      simp only [hl, Option.bind_some] at h
      cases ho : orgL c L with
      | none => simp [ho] at h
      | some c1 =>
        simp only [ho, Option.bind_some] at h
        obtain ⟨cr1, hcr1, he1⟩ := orgL_extends _ _ _ ho n cr hn
        obtain ⟨cr2, hcr2, he2⟩ := ih _ _ h n cr1 hcr1
        refine ⟨cr2, hcr2, ?_⟩
        intro key u hu
        obtain ⟨w, hw, hx⟩ := he1 key u hu
        obtain ⟨w', hw', hx'⟩ := he2 key w hw
        exact ⟨w', hw', hx.trans hx'⟩

theorem finV_get? (inds : List Nat) : ∀ (c : Dict String (Core K)) (v : Dict String (Core K × Core K)),
    finV inds c = some v → ∀ n cr, c.get? n = some cr → ∃ c', finC inds cr = some c' ∧ v.get? n = some (c', c') := by
  intro c
  induction c with
  | nil => intro v _ n cr h; simp at h
  | cons p cs ih =>
    obtain ⟨k, c⟩ := p
    intro v h n cr hn
    simp only [finV] at h
    cases hf : finC inds c with
    | none => simp [hf] at h
    | some c' =>
      simp only [hf, Option.bind_some, Option.map_eq_some_iff] at h
      obtain ⟨r, hr, rfl⟩ := h
      by_cases e : k = n
      · subst e
        simp only [Dict.get?, if_true, Option.some.injEq] at hn ⊢
        subst hn
        exact ⟨c', hf, rfl⟩
      · simp only [Dict.get?, e, if_false] at hn ⊢
        exact ih _ hr n cr hn

/-! ## calculated -/

theorem organise_calculated (r r' : Res K) (a b : Dict String (PyVal K)) (h : organise r a b = some r') :
    r'.calculated = r.calculated := by
  simp only [organise] at h
  cases h1 : appendAll r.results a with
  | none => simp [h1] at h
  | some x =>
    simp only [h1, Option.bind_some, Option.map_eq_some_iff] at h
    obtain ⟨_, _, rfl⟩ := h; rfl

theorem finaliseRes_calculated (inds : List Nat) (r r' : Res K) (h : finaliseRes inds r = some r') :
    r'.calculated = r.calculated := by
  simp only [finaliseRes] at h
  cases h1 : mapValues (finaliseVal inds) r.results with
  | none => simp [h1] at h
  | some x =>
    simp only [h1, Option.bind_some, Option.map_eq_some_iff] at h
    obtain ⟨_, _, rfl⟩ := h; rfl

/-- nothing has been calculated in any object -/
def NoCalc (st : Store K) : Prop := ∀ n r, st.get? n = some r → r.calculated = []

theorem NoCalc_reset (st : Store K) : NoCalc (reset st) := by
  intro n r h
  simp only [reset] at h
  rw [get?_map (fun _ => ({} : Res K))] at h
  simp only [Option.map_eq_some_iff] at h
  obtain ⟨_, _, rfl⟩ := h; rfl

theorem NoCalc_organiseJob : ∀ (J st st' : Store K), NoCalc st → organiseJob st J = some st' → NoCalc st' := by
  intro J
  induction J with
  | nil => intro st st' hn h; simp [organiseJob] at h; rw [← h]; exact hn
  | cons p rest ih =>
    obtain ⟨n, r⟩ := p
    intro st st' hn h
    simp only [organiseJob] at h
    cases hg : st.get? n with
    | none => simp [hg] at h
    | some own =>
      simp only [hg] at h
      cases ho : organise own r.resultsLast r.statesLast with
      | none => simp [ho] at h
      | some own' =>
        simp only [ho, Option.bind_some] at h
        refine ih _ _ ?_ h
        intro m x hm
        rw [Dict.get?_set] at hm
        split at hm
        · cases hm; rw [organise_calculated _ _ _ _ ho]; exact hn _ _ hg
        · exact hn _ _ hm

theorem NoCalc_organiseMulti : ∀ (rs : List (Option (Store K))) (st st' : Store K), NoCalc st →
    organiseMulti st rs = some st' → NoCalc st' := by
  intro rs
  induction rs with
  | nil => intro st st' hn h; simp [organiseMulti] at h; rw [← h]; exact hn
  | cons r rest ih =>
    intro st st' hn h
    cases r with
    | none => simp [organiseMulti] at h
    | some r =>
      simp only [organiseMulti] at h
      cases ho : organiseJob st r with
      | none => simp [ho] at h
      | some st1 =>
        simp only [ho, Option.bind_some] at h
        exact ih _ _ (NoCalc_organiseJob _ _ _ hn ho) h

theorem NoCalc_finaliseAll (inds : List Nat) (st st' : Store K) (hn : NoCalc st) (h : finaliseAll inds st = some st') :
    NoCalc st' := by
  intro n r hr
  rw [mapValues_get? _ _ _ h] at hr
  cases hg : st.get? n with
  | none => simp [hg] at hr
  | some own =>
    simp only [hg, Option.bind_some] at hr
    rw [finaliseRes_calculated _ _ _ hr]; exact hn _ _ hg

/-! ## Averages -/

theorem get?_del_ne {V : Type} (d : Dict String V) (k k' : String) (h : k ≠ k') :
    Dict.get? (Dict.del d k) k' = d.get? k' := by
  induction d with
  | nil => rfl
  | cons p rest ih =>
    obtain ⟨a, b⟩ := p
    by_cases e : a = k
    · subst e; simp [Dict.del, Dict.get?, h]
    · simp [Dict.del, Dict.get?, e, ih]

/-- the values averaged under `key`, in order -/
def averaged (key : String) : List (Op K) → List K
  | [] => []
  | .avg k x :: os => if k = key then x :: averaged key os else averaged key os
  | _ :: os => averaged key os

/-- `key` is not used with `singleResult` -/
def NoSingle (key : String) (ops : List (Op K)) : Prop := ∀ v, Op.single key v ∉ ops

/-- bookkeeping after the values `vs` have been averaged -/
def AvgInv [Field K] (key : String) (vs : List K) (r : Res K) : Prop :=
  (vs = [] ∧ r.average.get? key = none) ∨
  (vs ≠ [] ∧ r.average.get? key = some (vs.sum / vs.length, vs.length) ∧
    r.resultsLast.get? key = some (.atom (vs.sum / vs.length)))

theorem appendTo_ne (d d' : Dict String (PyVal K)) (k key : String) (v : PyVal K) (h : appendTo d k v = some d')
    (hk : k ≠ key) : d'.get? key = d.get? key := by
  simp only [appendTo] at h
  split at h
  · simp at h; subst h; exact Dict.get?_set_ne _ _ _ _ hk
  · simp at h; subst h; exact Dict.get?_set_ne _ _ _ _ hk
  · simp at h

theorem AvgInv_execOps [Field K] [CharZero K] (key : String) : ∀ (ops : List (Op K)) (vs : List K) (r r' : Res K),
    AvgInv key vs r → NoSingle key ops → execOps r ops = some r' → AvgInv key (vs ++ averaged key ops) r' := by
  intro ops
  induction ops with
  | nil => intro vs r r' hi _ h; simp [execOps] at h; subst h; simpa [averaged] using hi
  | cons o os ih =>
    intro vs r r' hi hns h
    have hns' : NoSingle key os := fun v hv => hns v (List.mem_cons_of_mem _ hv)
    simp only [execOps] at h
    cases he : execOp r o with
    | none => simp [he] at h
    | some r1 =>
      simp only [he, Option.bind_some] at h
      cases o with
      | single k v =>
        simp only [averaged]
        refine ih vs r1 r' ?_ hns' h
        simp only [execOp, Option.map_eq_some_iff] at he
        obtain ⟨d, hd, rfl⟩ := he
        have hk : k ≠ key := by rintro rfl; exact hns v (by simp)
        simpa [AvgInv, appendTo_ne _ _ _ _ _ hd hk] using hi
      | state k v =>
        simp only [averaged]
        refine ih vs r1 r' ?_ hns' h
        simp only [execOp, Option.map_eq_some_iff] at he
        obtain ⟨d, hd, rfl⟩ := he
        simpa [AvgInv] using hi
      | calcd k v =>
        simp only [averaged]
        refine ih vs r1 r' ?_ hns' h
        simp only [execOp, Option.some.injEq] at he
        subst he
        simpa [AvgInv] using hi
      | avg k x =>
        simp only [execOp, Option.some.injEq] at he
        by_cases hk : k = key
        · subst hk
          simp only [averaged, if_true]
          rw [show vs ++ x :: averaged k os = (vs ++ [x]) ++ averaged k os by simp]
          refine ih _ r1 r' ?_ hns' h
          right
          refine ⟨by simp, ?_⟩
          rcases hi with ⟨rfl, hn⟩ | ⟨hne, ha, hr⟩
          · simp only [resAverage, hn] at he
            subst he
            simp
          · have hl : (vs.length : K) ≠ 0 := by
              simp [hne]
            have hl1 : (vs.length : K) + 1 ≠ 0 := by
              have : ((vs.length + 1 : Nat) : K) ≠ 0 := Nat.cast_ne_zero.mpr (by omega)
              simpa using this
            have e : ((vs.length : K) * (vs.sum / vs.length) + x) / ((vs.length : K) + 1)
                = (vs ++ [x]).sum / ((vs ++ [x]).length : Nat) := by
              simp only [List.sum_append, List.sum_singleton, List.length_append, List.length_singleton,
                Nat.cast_add, Nat.cast_one]
              rw [mul_div_cancel₀ _ hl]
            simp only [resAverage, ha] at he
            subst he
            rw [← e]
            simp
        · simp only [averaged, hk, if_false]
          refine ih vs r1 r' ?_ hns' h
          have h1 : r1.average.get? key = r.average.get? key := by
            subst he
            simp only [resAverage]
            cases hg : r.average.get? k with
            | none => simp [Dict.get?_set_ne _ _ _ _ hk]
            | some q => simp [Dict.get?_set_ne _ _ _ _ hk, get?_del_ne _ _ _ hk]
          have h2 : r1.resultsLast.get? key = r.resultsLast.get? key := by
            subst he
            simp only [resAverage]
            cases hg : r.average.get? k with
            | none => simp [Dict.get?_set_ne _ _ _ _ hk]
            | some q => simp [Dict.get?_set_ne _ _ _ _ hk]
          simpa [AvgInv, h1, h2] using hi

end Verif.Results
