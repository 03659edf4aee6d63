import Verif.Results.Props

/-!
# C88: what `run` returns, and what it does to the results of other simulations

The end of `Simulation.run` (`QSim.py:355-359`) after the model of a run in `Results/Model.lean`.  Simplifications: those of that model; the keys
are strings (a name plus `"Results"`), and the result object with a name or alias is given by a function (C21, C22 are about the lookup).
-/
namespace Verif.Results
open Verif.Sweep

variable {K α : Type}

/-- A protocol in the simulation as far as storing its states is concerned: its name, whether it is `_internal`, the name of its `superSys`, whether
the states are kept (`delStates is False`). -/
structure PInfo where
  id : Nat
  name : String
  internal : Bool
  owner : String
  keep : Bool
deriving DecidableEq

/-- The key under which the states are stored (`QSim.py:324-327`). -/
def PInfo.key (p : PInfo) : String := (if p.internal then p.owner else p.name) ++ "Results"

/-- The states stored by `Simulation.__compute` at one time point (`QSim.py:320-327`). -/
def storeOps (simRes : String) (protos : List PInfo) (cur : Nat → PyVal K) : List (String × Op K) :=
  protos.flatMap fun p => if p.keep then [(simRes, .state p.key (cur p.id))] else []

/-- The loop after the run (`QSim.py:355-356`): `allResults[key]._qResBase__states[key] = val`.  After `_finalise` the visible dictionary is the same
object (`QRes.py:321-322`).  `none` is a KeyError. -/
def copyStates (lookup : String → Option String) : Dict String (PyVal K) → Store K → Option (Store K)
  | [], st => some st
  | (key, val) :: rest, st => match lookup key with
    | none => none
    | some n => match st.get? n with
      | none => none
      | some r => copyStates lookup rest (st.set n { r with states := r.states.set key val, statesLast := r.statesLast.set key val })

/-- Who the simulation is: its name, the name of its result object, the name of its `superSys` if it has one. -/
structure Who where
  name : String
  res : String
  super : Option String

/-- `Simulation.run` with what it returns (`QSim.py:330-359`).  The dictionary of states is a `defaultdict`, so a missing key gives an empty list and
is there afterwards. -/
def fullRun [Field K] (fd : FloatDiv) (cfg : Cfg K α) (mode : Option (List Nat)) (resetRes : Bool) (who : Who)
    (lookup : String → Option String) (p : PState K α) : Option (PyVal K × PState K α) :=
  match run fd cfg mode resetRes p with
  | none => none
  | some q => match q.store.get? who.res with
    | none => none
    | some r => match copyStates lookup r.statesLast q.store with
      | none => none
      | some st => match st.get? who.res with
        | none => none
        | some r => match r.statesLast.get? (who.super.getD who.name ++ "Results") with
          | some v => some (v, ⟨q.params, st⟩)
          | none => some (.list [], ⟨q.params, st.set who.res { r with
              states := r.states.set (who.super.getD who.name ++ "Results") (.list []),
              statesLast := r.statesLast.set (who.super.getD who.name ++ "Results") (.list []) }⟩)

/-! ### Specification -/

/-- The states among the operations that go to a result object under a key, in order. -/
def content (n key : String) : List (String × Op K) → List (PyVal K)
  | [] => []
  | (m, .state k v) :: r => if m = n ∧ k = key then v :: content n key r else content n key r
  | _ :: r => content n key r

/-- The states that are stored during an evolution with given parameters are those of the protocols, at every time point of the trajectory
`traj params` (callbacks cannot store states). -/
def StoresStates (cfg : Cfg K α) (simRes : String) (protos : List PInfo) (traj : (String → α) → List (Nat → PyVal K)) : Prop :=
  ∀ params n key, content n key (cfg.sim params) = content n key ((traj params).flatMap (storeOps simRes protos))

/-- The list under a key of a `defaultdict(list)` in which nothing is empty. -/
def lst (l : List (PyVal K)) : Option (PyVal K) := match l with | [] => none | l => some (.list l)

/-! ### Lemmas -/

theorem lst_append_one (l : List (PyVal K)) (v : PyVal K) : lst (l ++ [v]) = some (.list (l ++ [v])) := by
  cases l <;> rfl

theorem appendTo_lst (d d' : Dict String (PyVal K)) (k key : String) (v : PyVal K) (l : List (PyVal K)) (h : appendTo d k v = some d')
    (hl : d.get? key = lst l) : d'.get? key = if k = key then lst (l ++ [v]) else lst l := by
  by_cases hk : k = key
  · subst hk
    rw [if_pos rfl, lst_append_one]
    simp only [appendTo, hl] at h
    cases l with
    | nil => cases h; simp
    | cons a b => cases h; simp
  · rw [if_neg hk, appendTo_ne d d' k key v h hk, hl]

theorem appendTo_nodup (d d' : Dict String (PyVal K)) (k : String) (v : PyVal K) (h : appendTo d k v = some d') (hd : (Dict.keys d).Nodup) :
    (Dict.keys d').Nodup := by
  simp only [appendTo] at h
  split at h
  · cases h; exact Dict.nodup_keys_set _ _ _ hd
  · cases h; exact Dict.nodup_keys_set _ _ _ hd
  · cases h

theorem appendAll_lst (last : Dict String (PyVal K)) (hd : (Dict.keys last).Nodup) (full full' : Dict String (PyVal K)) (key : String)
    (l : List (PyVal K)) (h : appendAll full last = some full') (hl : full.get? key = lst l) :
    full'.get? key = match last.get? key with | none => lst l | some v => lst (l ++ [v]) := by
  induction last generalizing full l with
  | nil => cases h; simpa using hl
  | cons p rest ih =>
    obtain ⟨k, v⟩ := p
    simp only [appendAll] at h
    simp only [Dict.keys, List.map_cons, List.nodup_cons] at hd
    cases h1 : appendTo full k v with
    | none => rw [h1] at h; cases h
    | some f =>
      rw [h1] at h
      have hf := appendTo_lst full f k key v l h1 hl
      by_cases hk : k = key
      · subst hk
        rw [if_pos rfl] at hf
        rw [ih hd.2 f _ h hf]
        have : Dict.get? rest k = none := (Dict.get?_eq_none_iff _ _).mpr hd.1
        rw [this]
        simp [Dict.get?]
      · rw [if_neg hk] at hf
        rw [ih hd.2 f _ h hf]
        simp [Dict.get?, hk]

theorem execL_states [Field K] (ops : List (String × Op K)) (L L' : Dict String (LastP K)) (n key : String) (l : LastP K) (c : List (PyVal K))
    (h : execL L ops = some L') (hn : L.get? n = some l) (hc : l.2.2.get? key = lst c) (hd : (Dict.keys l.2.2).Nodup) :
    ∃ l', L'.get? n = some l' ∧ l'.2.2.get? key = lst (c ++ content n key ops) ∧ (Dict.keys l'.2.2).Nodup := by
  induction ops generalizing L l c with
  | nil => cases h; exact ⟨l, hn, by simpa [content] using hc, hd⟩
  | cons p os ih =>
    obtain ⟨m, o⟩ := p
    simp only [execL] at h
    cases hm : L.get? m with
    | none => rw [hm] at h; cases h
    | some r =>
      rw [hm] at h
      dsimp only at h
      cases ho : execOpL r o with
      | none => rw [ho] at h; cases h
      | some r' =>
        rw [ho] at h
        simp only [Option.bind_some] at h
        by_cases hmn : m = n
        · subst hmn
          rw [hn] at hm; cases hm
          have key' : r'.2.2.get? key = lst (c ++ content m key [(m, o)]) ∧ (Dict.keys r'.2.2).Nodup := by
            cases o with
            | single k v =>
              simp only [execOpL, execOp, ofLast, Option.map_map, Option.map_eq_some_iff] at ho
              obtain ⟨d, -, rfl⟩ := ho
              exact ⟨by simpa [content, lastR] using hc, hd⟩
            | avg k x =>
              simp only [execOpL, execOp, Option.map_some, Option.some.injEq] at ho
              subst ho
              have : (lastR (resAverage (ofLast l) k x)).2.2 = l.2.2 := by
                unfold resAverage lastR ofLast
                dsimp only
                split <;> rfl
              rw [this]
              exact ⟨by simpa [content] using hc, hd⟩
            | calcd k v =>
              simp only [execOpL, execOp, Option.map_some, Option.some.injEq] at ho
              subst ho
              exact ⟨by simpa [content, lastR, ofLast] using hc, hd⟩
            | state k v =>
              simp only [execOpL, execOp, ofLast, Option.map_map, Option.map_eq_some_iff] at ho
              obtain ⟨d, hd', rfl⟩ := ho
              refine ⟨?_, appendTo_nodup _ _ _ _ hd' hd⟩
              have := appendTo_lst _ _ k key v c hd' hc
              simp only [lastR, Function.comp]
              rw [this]
              by_cases hk : k = key <;> simp [content, hk]
          obtain ⟨l', h1, h2, h3⟩ := ih (L.set m r') r' (c ++ content m key [(m, o)]) h (by simp) key'.1 key'.2
          refine ⟨l', h1, ?_, h3⟩
          rw [h2, List.append_assoc]
          congr 2
          cases o with
          | state k v =>
            by_cases hk : k = key <;> simp [content, hk]
          | _ => simp [content]
        · obtain ⟨l', h1, h2, h3⟩ := ih (L.set m r') l c h (by rw [Dict.get?_set_ne _ _ _ _ hmn]; exact hn) hc hd
          refine ⟨l', h1, ?_, h3⟩
          rw [h2]
          cases o with
          | state k v => simp [content, hmn]
          | _ => simp [content]

theorem orgL_states (c : Dict String (Core K)) (L : Dict String (LastP K)) (c' : Dict String (Core K)) (h : orgL c L = some c')
    (hk : Dict.keys c = Dict.keys L) (n key : String) (cr : Core K) (l : LastP K) (acc x : List (PyVal K)) (hn : c.get? n = some cr)
    (hL : L.get? n = some l) (hacc : cr.2.get? key = lst acc) (hx : l.2.2.get? key = lst x) (hd : (Dict.keys l.2.2).Nodup) :
    ∃ cr', c'.get? n = some cr' ∧ cr'.2.get? key = lst (acc ++ if x = [] then [] else [.list x]) := by
  induction c generalizing L c' with
  | nil => cases hn
  | cons p cs ih =>
    obtain ⟨k, d⟩ := p
    cases L with
    | nil => simp [Dict.keys] at hk
    | cons q ls =>
      obtain ⟨k', m⟩ := q
      simp only [Dict.keys, List.map_cons, List.cons.injEq] at hk
      obtain ⟨rfl, hk⟩ := hk
      simp only [orgL] at h
      cases ho : orgC d m with
      | none => rw [ho] at h; cases h
      | some d' =>
        rw [ho] at h
        simp only [Option.bind_some, Option.map_eq_some_iff] at h
        obtain ⟨r, hr, rfl⟩ := h
        by_cases hkn : k = n
        · subst hkn
          simp only [Dict.get?, if_true] at hn hL
          cases hn; cases hL
          refine ⟨d', by simp [Dict.get?], ?_⟩
          simp only [orgC] at ho
          cases h1 : appendAll cr.1 l.1 with
          | none => rw [h1] at ho; cases ho
          | some res =>
            rw [h1] at ho
            simp only [Option.bind_some, Option.map_eq_some_iff] at ho
            obtain ⟨sts, hs, rfl⟩ := ho
            have := appendAll_lst l.2.2 hd cr.2 sts key acc hs hacc
            rw [this, hx]
            cases x with
            | nil => simp [lst]
            | cons a b => simp [lst]
        · simp only [Dict.get?, if_neg hkn] at hn hL
          obtain ⟨cr', h1, h2⟩ := ih ls r hr hk hn hL
          exact ⟨cr', by simp only [Dict.get?, if_neg hkn]; exact h1, h2⟩

/-- Not the empty list. -/
def nonNil : PyVal K → Bool
  | .list [] => false
  | _ => true

theorem keys_execL [Field K] (ops : List (String × Op K)) (L L' : Dict String (LastP K)) (h : execL L ops = some L') :
    Dict.keys L' = Dict.keys L := by
  induction ops generalizing L with
  | nil => cases h; rfl
  | cons p os ih =>
    obtain ⟨m, o⟩ := p
    simp only [execL] at h
    cases hm : L.get? m with
    | none => rw [hm] at h; cases h
    | some r =>
      rw [hm] at h
      dsimp only at h
      cases ho : execOpL r o with
      | none => rw [ho] at h; cases h
      | some r' =>
        rw [ho] at h
        rw [ih _ h, Dict.keys_set, if_pos ((Dict.mem_keys_iff _ _).mpr ⟨r, hm⟩)]

theorem emptyLast_get (names : List String) (n : String) (hn : n ∈ names) : (emptyLast names : Dict String (LastP K)).get? n = some ([], [], []) := by
  induction names with
  | nil => cases hn
  | cons a r ih =>
    simp only [emptyLast, List.map_cons, Dict.get?]
    by_cases ha : a = n
    · rw [if_pos ha]
    · rw [if_neg ha]
      rcases List.mem_cons.mp hn with rfl | hn
      · exact absurd rfl ha
      · exact ih hn

theorem coreLoop_states [Field K] (fd : FloatDiv) (cfg : Cfg K α) (names : List String) (p0 : String → α) (n key : String) (hn : n ∈ names)
    (is : List Nat) (c c' : Dict String (Core K)) (h : coreLoop fd cfg names p0 is c = some c') (hk : Dict.keys c = names) (cr : Core K)
    (acc : List (PyVal K)) (hc : c.get? n = some cr) (hacc : cr.2.get? key = lst acc) :
    ∃ l cr', collectRuns (sweepPoint fd (prepare {} cfg.sweeps) cfg.sweeps)
        (fun vals => .list (content n key (cfg.sim (assign p0 cfg.targets vals)))) is = some l ∧
      c'.get? n = some cr' ∧ cr'.2.get? key = lst (acc ++ l.filter nonNil) := by
  induction is generalizing c cr acc with
  | nil => cases h; exact ⟨[], cr, rfl, hc, by simpa using hacc⟩
  | cons i is ih =>
    simp only [coreLoop, pointLast] at h
    cases hs : sweepPoint fd (prepare {} cfg.sweeps) cfg.sweeps i with
    | none => rw [hs] at h; cases h
    | some vals =>
      rw [hs] at h
      simp only [Option.bind_some] at h
      cases he : execL (emptyLast names) (cfg.sim (assign p0 cfg.targets vals)) with
      | none => rw [he] at h; cases h
      | some L =>
        rw [he] at h
        simp only [Option.bind_some] at h
        cases ho : orgL c L with
        | none => rw [ho] at h; cases h
        | some c1 =>
          rw [ho] at h
          simp only [Option.bind_some] at h
          have hempty : (emptyLast names : Dict String (LastP K)).get? n = some ([], [], []) := emptyLast_get names n hn
          obtain ⟨l, hl1, hl2, hl3⟩ := execL_states _ _ _ n key _ [] he hempty rfl (by simp [Dict.keys])
          have hkL : Dict.keys c = Dict.keys L := by
            rw [hk, keys_execL _ _ _ he]
            simp [emptyLast, Dict.keys, Function.comp_def]
          obtain ⟨cr1, hcr1, hcr2⟩ := orgL_states c L c1 ho hkL n key cr l acc _ hc hl1 hacc hl2 hl3
          obtain ⟨l', cr', h1, h2, h3⟩ := ih c1 h ((orgL_keys c L c1 ho).trans hk) cr1 _ hcr1 hcr2
          refine ⟨.list (content n key (cfg.sim (assign p0 cfg.targets vals))) :: l', cr', by simp only [collectRuns, hs, h1], h2, ?_⟩
          rw [h3, List.append_assoc, List.nil_append, List.filter_cons]
          generalize content n key (cfg.sim (assign p0 cfg.targets vals)) = x
          cases x with
          | nil => rfl
          | cons a b => rfl

/-- The states of a run with reset: for every result object and key what the evolutions of the points stored, nested like the sweeps. -/
theorem run_states [Field K] (fd : FloatDiv) (cfg : Cfg K α) (hwf : cfg.WF) (mode : Option (List Nat))
    (hm : ∀ o, mode = some o → Schedule cfg o) (p q : PState K α) (hnd : (Dict.keys p.store).Nodup) (hq : run fd cfg mode true p = some q)
    (n key : String) (hn : n ∈ Dict.keys p.store) :
    ∃ l r, collectRuns (sweepPoint fd (prepare {} cfg.sweeps) cfg.sweeps)
        (fun vals => .list (content n key (cfg.sim (assign p.params cfg.targets vals)))) (List.range (prepare {} cfg.sweeps).indMultip) = some l ∧
      q.store.get? n = some r ∧ r.statesLast.get? key = (lst (l.filter nonNil)).bind (finaliseVal (prepare {} cfg.sweeps).inds) ∧
      r.states.get? key = r.statesLast.get? key := by
  have hc : cfg.targets.length ≤ cfg.sweeps.length := le_of_eq hwf
  have hv : (coreLoop fd cfg (Dict.keys p.store) p.params (List.range (prepare {} cfg.sweeps).indMultip)
      (coreS (start true p.store))).bind (finV (prepare {} cfg.sweeps).inds) = some (view q.store) := by
    rw [run_eq] at hq
    cases mode with
    | none =>
      have := nonParal_view fd cfg hc ⟨p.params, start true p.store⟩ p.params (fun _ _ => rfl)
      simp only at hq
      rw [hq] at this
      rw [keys_start] at this
      exact this.symm
    | some o =>
      have := paral_view fd cfg hc ⟨p.params, start true p.store⟩ (by simpa [keys_start] using hnd) o
        (fun i hi => (hm o rfl).mem_iff.mpr (List.mem_range.mpr hi))
      simp only at hq
      rw [hq] at this
      rw [keys_start] at this
      exact this.symm
  cases hl : coreLoop fd cfg (Dict.keys p.store) p.params (List.range (prepare {} cfg.sweeps).indMultip) (coreS (start true p.store)) with
  | none => rw [hl] at hv; cases hv
  | some c =>
    rw [hl] at hv
    simp only [Option.bind_some] at hv
    have h0 : (coreS (start true p.store)).get? n = some (([], []) : Core K) := by
      obtain ⟨r, hr⟩ := (Dict.mem_keys_iff _ _).mp hn
      simp only [coreS, start, if_true, reset, List.map_map]
      have := get?_map (fun _ : Res K => (([], []) : Core K)) p.store n
      rw [hr] at this
      exact this
    obtain ⟨l, cr, h1, h2, h3⟩ := coreLoop_states fd cfg _ p.params n key hn _ _ _ hl (by rw [keys_coreS, keys_start]) _ [] h0 rfl
    obtain ⟨c2, hf, hg⟩ := finV_get? _ _ _ hv n cr h2
    have : (view q.store).get? n = (q.store.get? n).map fun r => ((r.results, r.states), (r.resultsLast, r.statesLast)) :=
      get?_map (fun r : Res K => ((r.results, r.states), (r.resultsLast, r.statesLast))) q.store n
    rw [this, Option.map_eq_some_iff] at hg
    obtain ⟨r, hr, he⟩ := hg
    simp only [finC] at hf
    cases hm1 : mapValues (finaliseVal (prepare {} cfg.sweeps).inds) cr.1 with
    | none => rw [hm1] at hf; cases hf
    | some res =>
      rw [hm1] at hf
      simp only [Option.bind_some, Option.map_eq_some_iff] at hf
      obtain ⟨sts, hs, rfl⟩ := hf
      simp only [Prod.mk.injEq] at he
      refine ⟨l, r, h1, hr, ?_, by rw [he.1.2, he.2.2]⟩
      rw [he.2.2, mapValues_get? _ _ _ hs, h3]
      rfl

theorem content_append (n key : String) (a b : List (String × Op K)) : content n key (a ++ b) = content n key a ++ content n key b := by
  induction a with
  | nil => rfl
  | cons p a ih =>
    obtain ⟨m, o⟩ := p
    cases o with
    | state k v => by_cases h : m = n ∧ k = key <;> simp [content, h, ih]
    | _ => simp [content, ih]

theorem content_flatMap (n key : String) {β : Type} (l : List β) (f : β → List (String × Op K)) :
    content n key (l.flatMap f) = l.flatMap fun x => content n key (f x) := by
  induction l with
  | nil => rfl
  | cons a l ih => rw [List.flatMap_cons, content_append, ih, List.flatMap_cons]

theorem content_store_none (n key simRes : String) (protos : List PInfo) (cur : Nat → PyVal K)
    (h : n ≠ simRes ∨ ∀ p ∈ protos, p.keep = true → p.key ≠ key) : content n key (storeOps simRes protos cur) = [] := by
  rw [storeOps, content_flatMap, List.flatMap_eq_nil_iff]
  intro p hp
  cases hk : p.keep with
  | false => rfl
  | true =>
    simp only [if_true, content]
    rw [if_neg]
    rintro ⟨h1, h2⟩
    rcases h with h | h
    · exact h h1.symm
    · exact h p hp hk h2

theorem content_store_one (simRes : String) (protos : List PInfo) (cur : Nat → PyVal K) (hnd : ((protos.filter (·.keep)).map (·.key)).Nodup)
    (p : PInfo) (hp : p ∈ protos) (hk : p.keep = true) : content simRes p.key (storeOps simRes protos cur) = [cur p.id] := by
  induction protos with
  | nil => cases hp
  | cons a r ih =>
    have e : storeOps simRes (a :: r) cur = (if a.keep then [(simRes, .state a.key (cur a.id))] else []) ++ storeOps simRes r cur := rfl
    rw [e, content_append]
    rcases List.mem_cons.mp hp with rfl | hp
    · rw [content_store_none]
      · simp [hk, content]
      · right
        intro q hq hqk he
        rw [List.filter_cons_of_pos (by simpa using hk), List.map_cons, List.nodup_cons] at hnd
        exact hnd.1 (List.mem_map.mpr ⟨q, List.mem_filter.mpr ⟨hq, hqk⟩, he⟩)
    · cases ha : a.keep with
      | false =>
        rw [List.filter_cons_of_neg (by simpa using ha)] at hnd
        simpa [content] using ih hnd hp
      | true =>
        rw [List.filter_cons_of_pos (by simpa using ha), List.map_cons, List.nodup_cons] at hnd
        rw [ih hnd.2 hp]
        have : a.key ≠ p.key := fun he => hnd.1 (List.mem_map.mpr ⟨p, List.mem_filter.mpr ⟨hp, hk⟩, he.symm⟩)
        simp [content, this]

theorem content_traj (simRes : String) (protos : List PInfo) (hnd : ((protos.filter (·.keep)).map (·.key)).Nodup) (p : PInfo) (hp : p ∈ protos)
    (hk : p.keep = true) (l : List (Nat → PyVal K)) : content simRes p.key (l.flatMap (storeOps simRes protos)) = l.map fun cur => cur p.id := by
  rw [content_flatMap]
  induction l with
  | nil => rfl
  | cons a l ih => rw [List.flatMap_cons, content_store_one simRes protos a hnd p hp hk, ih]; rfl

theorem content_traj_none (n key simRes : String) (protos : List PInfo) (h : n ≠ simRes ∨ ∀ p ∈ protos, p.keep = true → p.key ≠ key)
    (l : List (Nat → PyVal K)) : content n key (l.flatMap (storeOps simRes protos)) = [] := by
  rw [content_flatMap, List.flatMap_eq_nil_iff]
  exact fun cur _ => content_store_none n key simRes protos cur h

theorem appendAll_nodup (last full full' : Dict String (PyVal K)) (h : appendAll full last = some full') (hd : (Dict.keys full).Nodup) :
    (Dict.keys full').Nodup := by
  induction last generalizing full with
  | nil => cases h; exact hd
  | cons p rest ih =>
    obtain ⟨k, v⟩ := p
    simp only [appendAll] at h
    cases h1 : appendTo full k v with
    | none => rw [h1] at h; cases h
    | some f => rw [h1] at h; exact ih f h (appendTo_nodup _ _ _ _ h1 hd)

/-- `_organise` object by object. -/
theorem orgL_get (c : Dict String (Core K)) (L : Dict String (LastP K)) (c' : Dict String (Core K)) (h : orgL c L = some c')
    (hk : Dict.keys c = Dict.keys L) (n : String) (cr : Core K) (l : LastP K) (hn : c.get? n = some cr) (hL : L.get? n = some l) :
    ∃ cr', c'.get? n = some cr' ∧ orgC cr l = some cr' := by
  induction c generalizing L c' with
  | nil => cases hn
  | cons p cs ih =>
    obtain ⟨k, d⟩ := p
    cases L with
    | nil => simp [Dict.keys] at hk
    | cons q ls =>
      obtain ⟨k', m⟩ := q
      simp only [Dict.keys, List.map_cons, List.cons.injEq] at hk
      obtain ⟨rfl, hk⟩ := hk
      simp only [orgL] at h
      cases ho : orgC d m with
      | none => rw [ho] at h; cases h
      | some d' =>
        rw [ho] at h
        simp only [Option.bind_some, Option.map_eq_some_iff] at h
        obtain ⟨r, hr, rfl⟩ := h
        by_cases hkn : k = n
        · subst hkn
          simp only [Dict.get?, if_true] at hn hL
          cases hn; cases hL
          exact ⟨d', by simp [Dict.get?], ho⟩
        · simp only [Dict.get?, if_neg hkn] at hn hL
          obtain ⟨cr', h1, h2⟩ := ih ls r hr hk hn hL
          exact ⟨cr', by simp only [Dict.get?, if_neg hkn]; exact h1, h2⟩

/-- Going through the points with an invariant of one object. -/
theorem coreLoop_inv [Field K] (fd : FloatDiv) (cfg : Cfg K α) (names : List String) (p0 : String → α) (n : String) (hn : n ∈ names)
    (I : Core K → Prop) (hI : ∀ params L l cr cr', execL (emptyLast names) (cfg.sim params) = some L → L.get? n = some l → orgC cr l = some cr' →
      I cr → I cr')
    (is : List Nat) (c c' : Dict String (Core K)) (h : coreLoop fd cfg names p0 is c = some c') (hk : Dict.keys c = names) (cr : Core K)
    (hc : c.get? n = some cr) (hcr : I cr) : ∃ cr', c'.get? n = some cr' ∧ I cr' := by
  induction is generalizing c cr with
  | nil => cases h; exact ⟨cr, hc, hcr⟩
  | cons i is ih =>
    simp only [coreLoop, pointLast] at h
    cases hs : sweepPoint fd (prepare {} cfg.sweeps) cfg.sweeps i with
    | none => rw [hs] at h; cases h
    | some vals =>
      rw [hs] at h
      simp only [Option.bind_some] at h
      cases he : execL (emptyLast names) (cfg.sim (assign p0 cfg.targets vals)) with
      | none => rw [he] at h; cases h
      | some L =>
        rw [he] at h
        simp only [Option.bind_some] at h
        cases ho : orgL c L with
        | none => rw [ho] at h; cases h
        | some c1 =>
          rw [ho] at h
          simp only [Option.bind_some] at h
          have hkL : Dict.keys c = Dict.keys L := by
            rw [hk, keys_execL _ _ _ he]
            simp [emptyLast, Dict.keys, Function.comp_def]
          obtain ⟨l, hl⟩ := (Dict.mem_keys_iff L n).mp (by rw [← hkL, hk]; exact hn)
          obtain ⟨cr1, h1, h2⟩ := orgL_get c L c1 ho hkL n cr l hc hl
          exact ih c1 h ((orgL_keys c L c1 ho).trans hk) cr1 h1 (hI _ _ _ _ _ he hl h2 hcr)

/-- The run in terms of the loop over the points, for any mode. -/
theorem run_view [Field K] (fd : FloatDiv) (cfg : Cfg K α) (hwf : cfg.WF) (mode : Option (List Nat))
    (hm : ∀ o, mode = some o → Schedule cfg o) (b : Bool) (p q : PState K α) (hnd : (Dict.keys p.store).Nodup)
    (hq : run fd cfg mode b p = some q) :
    ∃ c, coreLoop fd cfg (Dict.keys p.store) p.params (List.range (prepare {} cfg.sweeps).indMultip) (coreS (start b p.store)) = some c ∧
      finV (prepare {} cfg.sweeps).inds c = some (view q.store) := by
  have hc : cfg.targets.length ≤ cfg.sweeps.length := le_of_eq hwf
  have hv : (coreLoop fd cfg (Dict.keys p.store) p.params (List.range (prepare {} cfg.sweeps).indMultip)
      (coreS (start b p.store))).bind (finV (prepare {} cfg.sweeps).inds) = some (view q.store) := by
    rw [run_eq] at hq
    cases mode with
    | none =>
      have := nonParal_view fd cfg hc ⟨p.params, start b p.store⟩ p.params (fun _ _ => rfl)
      simp only at hq
      rw [hq] at this
      rw [keys_start] at this
      exact this.symm
    | some o =>
      have := paral_view fd cfg hc ⟨p.params, start b p.store⟩ (by simpa [keys_start] using hnd) o
        (fun i hi => (hm o rfl).mem_iff.mpr (List.mem_range.mpr hi))
      simp only at hq
      rw [hq] at this
      rw [keys_start] at this
      exact this.symm
  cases hl : coreLoop fd cfg (Dict.keys p.store) p.params (List.range (prepare {} cfg.sweeps).indMultip) (coreS (start b p.store)) with
  | none => rw [hl] at hv; cases hv
  | some c => exact ⟨c, rfl, by rw [hl] at hv; exact hv⟩

/-- An invariant of one object carried through a run. -/
theorem run_inv_obj [Field K] (fd : FloatDiv) (cfg : Cfg K α) (hwf : cfg.WF) (mode : Option (List Nat))
    (hm : ∀ o, mode = some o → Schedule cfg o) (b : Bool) (p q : PState K α) (hnd : (Dict.keys p.store).Nodup)
    (hq : run fd cfg mode b p = some q) (n : String) (I : Core K → Prop)
    (hI : ∀ params L l cr cr', execL (emptyLast (Dict.keys p.store)) (cfg.sim params) = some L → L.get? n = some l → orgC cr l = some cr' →
      I cr → I cr') (r0 : Res K) (hr0 : (start b p.store).get? n = some r0) (h0 : I (coreR r0)) :
    ∃ cr r, I cr ∧ finC (prepare {} cfg.sweeps).inds cr = some (r.results, r.states) ∧ q.store.get? n = some r ∧
      r.resultsLast = r.results ∧ r.statesLast = r.states := by
  obtain ⟨c, h1, h2⟩ := run_view fd cfg hwf mode hm b p q hnd hq
  have hn : n ∈ Dict.keys p.store := by rw [← keys_start b]; exact (Dict.mem_keys_iff _ _).mpr ⟨r0, hr0⟩
  have hc0 : (coreS (start b p.store)).get? n = some (coreR r0) := by
    have := get?_map (coreR (K := K)) (start b p.store) n
    rw [hr0] at this
    exact this
  obtain ⟨cr, hcr, hi⟩ := coreLoop_inv fd cfg _ p.params n hn I hI _ _ _ h1 (by rw [keys_coreS, keys_start]) _ hc0 h0
  obtain ⟨c2, hf, hg⟩ := finV_get? _ _ _ h2 n cr hcr
  have : (view q.store).get? n = (q.store.get? n).map fun r => ((r.results, r.states), (r.resultsLast, r.statesLast)) :=
    get?_map (fun r : Res K => ((r.results, r.states), (r.resultsLast, r.statesLast))) q.store n
  rw [this, Option.map_eq_some_iff] at hg
  obtain ⟨r, hr, he⟩ := hg
  simp only [Prod.mk.injEq] at he
  refine ⟨cr, r, hi, ?_, hr, ?_, ?_⟩
  · rw [hf, ← he.1]
  · rw [← he.2] at he; exact (congrArg Prod.fst he.1).symm
  · rw [← he.2] at he; exact (congrArg Prod.snd he.1).symm

theorem start_get (st : Store K) (n : String) (hn : n ∈ Dict.keys st) : (start true st).get? n = some {} := by
  obtain ⟨r, hr⟩ := (Dict.mem_keys_iff _ _).mp hn
  have := get?_map (fun _ : Res K => ({} : Res K)) st n
  rw [hr] at this
  exact this

theorem finC_keys (inds : List Nat) (c c' : Core K) (h : finC inds c = some c') : Dict.keys c'.2 = Dict.keys c.2 := by
  simp only [finC] at h
  cases hm1 : mapValues (finaliseVal inds) c.1 with
  | none => rw [hm1] at h; cases h
  | some res =>
    rw [hm1] at h
    simp only [Option.bind_some, Option.map_eq_some_iff] at h
    obtain ⟨sts, hs, rfl⟩ := h
    exact keys_mapValues _ _ _ hs

theorem orgC_nodup (cr cr' : Core K) (l : LastP K) (h : orgC cr l = some cr') (hd : (Dict.keys cr.2).Nodup) : (Dict.keys cr'.2).Nodup := by
  simp only [orgC] at h
  cases h1 : appendAll cr.1 l.1 with
  | none => rw [h1] at h; cases h
  | some res =>
    rw [h1] at h
    simp only [Option.bind_some, Option.map_eq_some_iff] at h
    obtain ⟨sts, hs, rfl⟩ := h
    exact appendAll_nodup _ _ _ hs hd

/-- The copying of the states, object by object and key by key. -/
theorem copyStates_get (lookup : String → Option String) (d : Dict String (PyVal K)) (hd : (Dict.keys d).Nodup) (st st' : Store K)
    (h : copyStates lookup d st = some st') (n : String) (r : Res K) (hr : st.get? n = some r) :
    ∃ r', st'.get? n = some r' ∧ r'.results = r.results ∧ r'.resultsLast = r.resultsLast ∧
      (∀ key, r'.statesLast.get? key = match d.get? key with
        | some v => if lookup key = some n then some v else r.statesLast.get? key
        | none => r.statesLast.get? key) ∧
      ((∀ key ∈ Dict.keys d, lookup key ≠ some n) → r' = r) := by
  induction d generalizing st r with
  | nil => cases h; exact ⟨r, hr, rfl, rfl, fun _ => rfl, fun _ => rfl⟩
  | cons p rest ih =>
    obtain ⟨k, v⟩ := p
    simp only [Dict.keys, List.map_cons, List.nodup_cons] at hd
    simp only [copyStates] at h
    cases hl : lookup k with
    | none => rw [hl] at h; cases h
    | some m =>
      rw [hl] at h
      dsimp only at h
      cases hm : st.get? m with
      | none => rw [hm] at h; cases h
      | some rm =>
        rw [hm] at h
        dsimp only at h
        have hrest : Dict.get? rest k = none := (Dict.get?_eq_none_iff _ _).mpr hd.1
        by_cases hmn : m = n
        · subst hmn
          rw [hr] at hm; cases hm
          obtain ⟨r', h1, h2, h3, h4, -⟩ := ih hd.2 _ h { r with states := r.states.set k v, statesLast := r.statesLast.set k v } (by simp)
          refine ⟨r', h1, h2, h3, ?_, fun hno => absurd hl (hno k (by simp [Dict.keys]))⟩
          intro key
          rw [h4]
          by_cases hk : k = key
          · subst hk
            simp [hrest, Dict.get?, hl]
          · simp only [Dict.get?, if_neg hk, Dict.get?_set_ne _ _ _ _ hk]
        · obtain ⟨r', h1, h2, h3, h4, h5⟩ := ih hd.2 _ h r (by rw [Dict.get?_set_ne _ _ _ _ hmn]; exact hr)
          refine ⟨r', h1, h2, h3, ?_, fun hno => h5 fun key hk => hno key (List.mem_cons_of_mem _ hk)⟩
          intro key
          rw [h4]
          by_cases hk : k = key
          · subst hk
            have : lookup k ≠ some n := by rw [hl]; exact fun c => hmn (Option.some.inj c)
            simp [hrest, Dict.get?, this]
          · simp only [Dict.get?, if_neg hk]

/-- What a successful call consists of. -/
theorem fullRun_some [Field K] (fd : FloatDiv) (cfg : Cfg K α) (mode : Option (List Nat)) (b : Bool) (who : Who)
    (lookup : String → Option String) (p q : PState K α) (v : PyVal K) (h : fullRun fd cfg mode b who lookup p = some (v, q)) :
    ∃ q0 r0 st r, run fd cfg mode b p = some q0 ∧ q0.store.get? who.res = some r0 ∧ copyStates lookup r0.statesLast q0.store = some st ∧
      st.get? who.res = some r ∧ q.params = q0.params ∧
      ((r.statesLast.get? (who.super.getD who.name ++ "Results") = some v ∧ q.store = st) ∨
        (r.statesLast.get? (who.super.getD who.name ++ "Results") = none ∧ v = .list [] ∧ q.store = st.set who.res { r with
              states := r.states.set (who.super.getD who.name ++ "Results") (.list []),
              statesLast := r.statesLast.set (who.super.getD who.name ++ "Results") (.list []) })) := by
  unfold fullRun at h
  cases hq : run fd cfg mode b p with
  | none => rw [hq] at h; cases h
  | some q0 =>
    rw [hq] at h
    dsimp only at h
    cases h0 : q0.store.get? who.res with
    | none => rw [h0] at h; cases h
    | some r0 =>
      rw [h0] at h
      dsimp only at h
      cases h1 : copyStates lookup r0.statesLast q0.store with
      | none => rw [h1] at h; cases h
      | some st =>
        rw [h1] at h
        dsimp only at h
        cases h2 : st.get? who.res with
        | none => rw [h2] at h; cases h
        | some r =>
          rw [h2] at h
          dsimp only at h
          cases h3 : r.statesLast.get? (who.super.getD who.name ++ "Results") with
          | some w =>
            rw [h3] at h
            cases h
            exact ⟨q0, r0, st, r, rfl, h0, h1, h2, rfl, .inl ⟨h3, rfl⟩⟩
          | none =>
            rw [h3] at h
            cases h
            exact ⟨q0, r0, st, r, rfl, h0, h1, h2, rfl, .inr ⟨h3, rfl, rfl⟩⟩

theorem append_results (a b : String) : a ++ "Results" = b ++ "Results" ↔ a = b := by
  constructor
  · intro h
    have := congrArg String.toList h
    simp only [String.toList_append, List.append_cancel_right_eq] at this
    exact String.toList_inj.mp this
  · rintro rfl; rfl

theorem run_nodup [Field K] (fd : FloatDiv) (cfg : Cfg K α) (hwf : cfg.WF) (mode : Option (List Nat))
    (hm : ∀ o, mode = some o → Schedule cfg o) (p q : PState K α) (hnd : (Dict.keys p.store).Nodup)
    (hq : run fd cfg mode true p = some q) (n : String) (r : Res K) (hr : q.store.get? n = some r) : (Dict.keys r.statesLast).Nodup := by
  have hn : n ∈ Dict.keys p.store := by
    rw [← (run_inv fd cfg mode true p q hq).1]; exact (Dict.mem_keys_iff _ _).mpr ⟨r, hr⟩
  obtain ⟨cr, r', h1, h2, h3, -, h5⟩ := run_inv_obj fd cfg hwf mode hm true p q hnd hq n (fun cr => (Dict.keys cr.2).Nodup)
    (fun _ _ _ _ _ _ _ ho hi => orgC_nodup _ _ _ ho hi) {} (start_get _ _ hn) (by simp [coreR, Dict.keys])
  rw [hr] at h3; cases h3
  rw [h5]
  have := finC_keys _ _ _ h2
  dsimp only at this
  rw [this]; exact h1

theorem filter_nonNil (point : Nat → Option (List α)) (f : List α → List (PyVal K)) (is : List Nat) (l : List (PyVal K))
    (h : collectRuns point (fun v => .list (f v)) is = some l) :
    ((∀ v, f v ≠ []) → l.filter nonNil = l) ∧ ((∀ v, f v = []) → l.filter nonNil = []) := by
  induction is generalizing l with
  | nil => cases h; simp
  | cons i is ih =>
    simp only [collectRuns] at h
    cases h1 : point i with
    | none => rw [h1] at h; cases h
    | some vals =>
      rw [h1] at h
      dsimp only at h
      cases h2 : collectRuns point (fun v => .list (f v)) is with
      | none => rw [h2] at h; cases h
      | some rs =>
        rw [h2] at h
        cases h
        obtain ⟨i1, i2⟩ := ih rs h2
        constructor
        · intro hf
          rw [List.filter_cons, i1 hf]
          cases hv : f vals with
          | nil => exact absurd hv (hf vals)
          | cons a b => rfl
        · intro hf
          rw [List.filter_cons, i2 hf, hf vals]
          rfl

theorem lst_ne_nil (l : List (PyVal K)) (h : l ≠ []) : lst l = some (.list l) := by
  cases l with
  | nil => exact absurd rfl h
  | cons a b => rfl

/-- The value returned for a kept protocol with the right key, as the nested list of the runs. -/
theorem returned_eq [Field K] (fd : FloatDiv) (cfg : Cfg K α) (hwf : cfg.WF) (mode : Option (List Nat))
    (hm : ∀ o, mode = some o → Schedule cfg o) (who : Who) (lookup : String → Option String) (p q : PState K α) (v : PyVal K)
    (hnd : (Dict.keys p.store).Nodup) (protos : List PInfo) (traj : (String → α) → List (Nat → PyVal K))
    (hst : StoresStates cfg who.res protos traj) (ht : ∀ params, traj params ≠ []) (hpr : ((protos.filter (·.keep)).map (·.key)).Nodup)
    (hpos : 0 < (prepare {} cfg.sweeps).indMultip)
    (h : fullRun fd cfg mode true who lookup p = some (v, q)) (pr : PInfo) (hp : pr ∈ protos) (hk : pr.keep = true)
    (hkey : pr.key = who.super.getD who.name ++ "Results") :
    runAll fd cfg.sweeps (fun vals => .list ((traj (assign p.params cfg.targets vals)).map fun cur => cur pr.id)) = some v ∧
    ∀ n, lookup pr.key = some n → ∃ r, q.store.get? n = some r ∧ r.statesLast.get? pr.key = some v := by
  obtain ⟨q0, r0, st, r, h1, h2, h3, h4, h5, h6⟩ := fullRun_some fd cfg mode true who lookup p q v h
  have hn : who.res ∈ Dict.keys p.store := by
    rw [← (run_inv fd cfg mode true p q0 h1).1]; exact (Dict.mem_keys_iff _ _).mpr ⟨r0, h2⟩
  obtain ⟨l, r0', hl, hr0, hs, -⟩ := run_states fd cfg hwf mode hm p q0 hnd h1 who.res pr.key hn
  rw [h2] at hr0; cases hr0
  have hcont : ∀ vals, content who.res pr.key (cfg.sim (assign p.params cfg.targets vals)) =
      (traj (assign p.params cfg.targets vals)).map fun cur => cur pr.id := by
    intro vals
    rw [hst, content_traj who.res protos hpr pr hp hk]
  simp only [hcont] at hl
  have hfil := (filter_nonNil _ _ _ _ hl).1 (fun vals => by simpa using ht _)
  have hlen : l ≠ [] := by
    obtain ⟨k, hk⟩ : ∃ k, (prepare {} cfg.sweeps).indMultip = k + 1 := ⟨_, (Nat.succ_pred_eq_of_pos hpos).symm⟩
    rw [hk, List.range_succ_eq_map] at hl
    simp only [collectRuns] at hl
    intro hnil
    subst hnil
    split at hl
    · cases hl
    · split at hl
      · cases hl
      · cases hl
  rw [hfil, lst_ne_nil _ hlen] at hs
  simp only [Option.bind_some, finaliseVal] at hs
  have hndk := run_nodup fd cfg hwf mode hm p q0 hnd h1 who.res r0 h2
  -- the run succeeded, so the reshaping did
  obtain ⟨w, hw⟩ : ∃ w, finalise (prepare {} cfg.sweeps).inds l = some w := by
    obtain ⟨cr, rr, hi1, hi2, hi3, -, hi5⟩ := run_inv_obj fd cfg hwf mode hm true p q0 hnd h1 who.res (fun _ => True)
      (fun _ _ _ _ _ _ _ _ _ => trivial) {} (start_get _ _ hn) trivial
    obtain ⟨c, hc1, hc2⟩ := run_view fd cfg hwf mode hm true p q0 hnd h1
    have h0 : (coreS (start true p.store)).get? who.res = some (([], []) : Core K) := by
      have := get?_map (coreR (K := K)) (start true p.store) who.res
      rw [start_get _ _ hn] at this
      exact this
    obtain ⟨l', cr', k1, k2, k3⟩ := coreLoop_states fd cfg _ p.params who.res pr.key hn _ _ _ hc1 (by rw [keys_coreS, keys_start]) _ [] h0 rfl
    simp only [hcont] at k1
    rw [hl] at k1; cases k1
    rw [List.nil_append, hfil, lst_ne_nil _ hlen] at k3
    obtain ⟨c2, hf, hg⟩ := finV_get? _ _ _ hc2 who.res cr' k2
    simp only [finC] at hf
    cases hm1 : mapValues (finaliseVal (prepare {} cfg.sweeps).inds) cr'.1 with
    | none => rw [hm1] at hf; cases hf
    | some res =>
      rw [hm1] at hf
      simp only [Option.bind_some, Option.map_eq_some_iff] at hf
      obtain ⟨sts, hs', rfl⟩ := hf
      have hkk : pr.key ∈ Dict.keys sts := by
        rw [keys_mapValues _ _ _ hs']; exact (Dict.mem_keys_iff _ _).mpr ⟨_, k3⟩
      obtain ⟨w, hw⟩ := (Dict.mem_keys_iff _ _).mp hkk
      rw [mapValues_get? _ _ _ hs', k3] at hw
      exact ⟨w, hw⟩
  rw [hw] at hs
  have hrun : runAll fd cfg.sweeps (fun vals => .list ((traj (assign p.params cfg.targets vals)).map fun cur => cur pr.id)) = some w := by
    simp only [runAll, hl]
    exact hw
  have hget : ∀ n r', q0.store.get? n = some r' → (lookup pr.key = some n ∨ n = who.res) → ∃ r, st.get? n = some r ∧ r.statesLast.get? pr.key = some w := by
    intro n r' hr' hc
    obtain ⟨rr, g1, -, -, g4, -⟩ := copyStates_get lookup _ hndk _ _ h3 n r' hr'
    refine ⟨rr, g1, ?_⟩
    rw [g4, hs]
    dsimp only
    by_cases hlk : lookup pr.key = some n
    · rw [if_pos hlk]
    · rw [if_neg hlk]
      rcases hc with hc | rfl
      · exact absurd hc hlk
      · rw [h2] at hr'; cases hr'
        exact hs
  obtain ⟨r', g1, g2⟩ := hget who.res r0 h2 (.inr rfl)
  rw [h4] at g1; cases g1
  rw [hkey] at g2
  rcases h6 with ⟨h6, h7⟩ | ⟨h6, -⟩
  · rw [g2] at h6; cases h6
    refine ⟨hrun, ?_⟩
    intro n hln
    rw [h7]
    cases hx : q0.store.get? n with
    | some r' => exact hget n r' hx (.inl hln)
    | none =>
      exfalso
      have : ∀ (d : Dict String (PyVal K)) (s s' : Store K), copyStates lookup d s = some s' → pr.key ∈ Dict.keys d → s.get? n ≠ none := by
        intro d
        induction d with
        | nil => intro s s' _ hmem; simp [Dict.keys] at hmem
        | cons e d ih =>
          obtain ⟨k, u⟩ := e
          intro s s' hcs hmem
          simp only [copyStates] at hcs
          cases hlk : lookup k with
          | none => rw [hlk] at hcs; cases hcs
          | some m =>
            rw [hlk] at hcs
            dsimp only at hcs
            cases hsm : s.get? m with
            | none => rw [hsm] at hcs; cases hcs
            | some rm =>
              rw [hsm] at hcs
              dsimp only at hcs
              simp only [Dict.keys, List.map_cons, List.mem_cons] at hmem
              by_cases hmn : m = n
              · subst hmn; rw [hsm]; simp
              · rcases hmem with he | hmem
                · rw [← he, hln] at hlk; exact absurd (Option.some.inj hlk).symm hmn
                · have := ih _ _ hcs hmem
                  rwa [Dict.get?_set_ne _ _ _ _ hmn] at this
      exact this _ _ _ h3 ((Dict.mem_keys_iff _ _).mpr ⟨_, hs⟩) hx
  · rw [g2] at h6; cases h6

/-! ### Statements -/

/-- `run()` of the simulation of a system returns, at every index tuple of the sweeps, the trajectory of the free evolution of this system with the
parameters of that point, in one or in several processes, and the same object is in the results of the system. -/
theorem C88_returns_partial [Field K] (fd : FloatDiv) (cfg : Cfg K α) (hwf : cfg.WF) (mode : Option (List Nat))
    (hm : ∀ o, mode = some o → Schedule cfg o) (who : Who) (lookup : String → Option String) (p q : PState K α) (v : PyVal K)
    (hnd : (Dict.keys p.store).Nodup) (protos : List PInfo) (traj : (String → α) → List (Nat → PyVal K))
    (hst : StoresStates cfg who.res protos traj) (ht : ∀ params, traj params ≠ []) (hpr : ((protos.filter (·.keep)).map (·.key)).Nodup)
    (s : SweepObj α) (ss : List (SweepObj α)) (hsw : cfg.sweeps = s :: ss) (hs : s.comb = false) (hl : LongEnough (s :: ss))
    (hpos : 0 < (axes (s :: ss)).prod) (hb : (axes (s :: ss)).prod ≤ 2 ^ 53)
    (h : fullRun fd cfg mode true who lookup p = some (v, q)) (system : String) (hsys : who.super = some system) (pr : PInfo) (hp : pr ∈ protos)
    (hk : pr.keep = true) (hi : pr.internal = true) (hown : pr.owner = system) :
    (∀ t, ValidIdx (axes (s :: ss)) t → ∃ vals shown, Delivers (s :: ss) t vals ∧ nestedGet v t = some shown ∧
      Shown (.list ((traj (assign p.params cfg.targets vals)).map fun cur => cur pr.id)) shown) ∧
    ∀ n, lookup (system ++ "Results") = some n → ∃ r, q.store.get? n = some r ∧ r.statesLast.get? (system ++ "Results") = some v := by
  have hkey : pr.key = system ++ "Results" := by simp [PInfo.key, hi, hown]
  obtain ⟨h1, h2⟩ := returned_eq fd cfg hwf mode hm who lookup p q v hnd protos traj hst ht hpr
    (by rw [hsw, prepare_multip _ _ (List.cons_ne_nil s ss)]; exact hpos) h pr hp hk (by rw [hkey, hsys]; rfl)
  rw [hsw] at h1
  obtain ⟨r, hr, hr2⟩ := C02_results_at_index fd s ss (fun vals => .list ((traj (assign p.params cfg.targets vals)).map fun cur => cur pr.id)) hs hl hb
  rw [hr] at h1; cases h1
  exact ⟨hr2, fun n hn => by rw [← hkey] at hn ⊢; exact h2 n hn⟩

/-- The same without sweeps: the trajectory itself is returned. -/
theorem C88_returns_plain [Field K] (fd : FloatDiv) (cfg : Cfg K α) (hwf : cfg.WF) (mode : Option (List Nat))
    (hm : ∀ o, mode = some o → Schedule cfg o) (who : Who) (lookup : String → Option String) (p q : PState K α) (v : PyVal K)
    (hnd : (Dict.keys p.store).Nodup) (protos : List PInfo) (traj : (String → α) → List (Nat → PyVal K))
    (hst : StoresStates cfg who.res protos traj) (ht : ∀ params, traj params ≠ []) (hpr : ((protos.filter (·.keep)).map (·.key)).Nodup)
    (hsw : cfg.sweeps = []) (h : fullRun fd cfg mode true who lookup p = some (v, q)) (system : String) (hsys : who.super = some system) (pr : PInfo)
    (hp : pr ∈ protos) (hk : pr.keep = true) (hi : pr.internal = true) (hown : pr.owner = system) :
    v = .list ((traj p.params).map fun cur => cur pr.id) ∧
    ∀ n, lookup (system ++ "Results") = some n → ∃ r, q.store.get? n = some r ∧ r.statesLast.get? (system ++ "Results") = some v := by
  have hkey : pr.key = system ++ "Results" := by simp [PInfo.key, hi, hown]
  obtain ⟨h1, h2⟩ := returned_eq fd cfg hwf mode hm who lookup p q v hnd protos traj hst ht hpr
    (by rw [hsw]; exact Nat.one_pos) h pr hp hk (by rw [hkey, hsys]; rfl)
  rw [hsw, C02_no_sweep] at h1
  have hta : cfg.targets = [] := by have := hwf; unfold Cfg.WF at this; rw [hsw] at this; exact List.length_eq_zero_iff.mp this
  rw [hta] at h1
  cases h1
  exact ⟨rfl, fun n hn => by rw [← hkey] at hn ⊢; exact h2 n hn⟩

/-- `run()` returns an empty list whenever no kept protocol is stored under the name of the owner: for the simulation of a system that is
evolved by protocols of its own, for every simulation without `superSys` (no protocol or system has its name), and with `delStates`. -/
theorem C88_returns_nothing [Field K] (fd : FloatDiv) (cfg : Cfg K α) (hwf : cfg.WF) (mode : Option (List Nat))
    (hm : ∀ o, mode = some o → Schedule cfg o) (who : Who) (lookup : String → Option String) (p q : PState K α) (v : PyVal K)
    (hnd : (Dict.keys p.store).Nodup) (protos : List PInfo) (traj : (String → α) → List (Nat → PyVal K))
    (hst : StoresStates cfg who.res protos traj)
    (h : fullRun fd cfg mode true who lookup p = some (v, q))
    (hno : ∀ pr ∈ protos, pr.keep = true → (if pr.internal then pr.owner else pr.name) ≠ who.super.getD who.name) :
    v = .list [] ∧ ∃ r, q.store.get? who.res = some r ∧ r.states.get? (who.super.getD who.name ++ "Results") = some (.list []) := by
  obtain ⟨q0, r0, st, r, h1, h2, h3, h4, h5, h6⟩ := fullRun_some fd cfg mode true who lookup p q v h
  have hn : who.res ∈ Dict.keys p.store := by
    rw [← (run_inv fd cfg mode true p q0 h1).1]; exact (Dict.mem_keys_iff _ _).mpr ⟨r0, h2⟩
  obtain ⟨l, r0', hl, hr0, hs, -⟩ := run_states fd cfg hwf mode hm p q0 hnd h1 who.res (who.super.getD who.name ++ "Results") hn
  rw [h2] at hr0; cases hr0
  have hcont : ∀ vals, content who.res (who.super.getD who.name ++ "Results") (cfg.sim (assign p.params cfg.targets vals)) = [] := by
    intro vals
    rw [hst, content_traj_none]
    exact .inr fun pr hp hk he => hno pr hp hk ((append_results _ _).mp he)
  simp only [hcont] at hl
  rw [(filter_nonNil _ (fun _ => []) _ _ hl).2 fun _ => rfl] at hs
  obtain ⟨rr, g1, -, -, g4, -⟩ := copyStates_get lookup _ (run_nodup fd cfg hwf mode hm p q0 hnd h1 who.res r0 h2) _ _ h3 who.res r0 h2
  rw [h4] at g1; cases g1
  have g4 := g4 (who.super.getD who.name ++ "Results")
  rw [hs] at g4
  rcases h6 with ⟨h6, -⟩ | ⟨-, h6, h7⟩
  · rw [g4] at h6; cases h6
  · refine ⟨h6, _, by rw [h7]; exact Dict.get?_set_self _ _ _, by simp⟩

/-- A run with `resetRes=True` deletes the results and states of every other simulation, system and protocol: whatever a result object contained, if
this simulation does not write to it, it is empty afterwards. -/
theorem C88_others_lost [Field K] (fd : FloatDiv) (cfg : Cfg K α) (hwf : cfg.WF) (mode : Option (List Nat))
    (hm : ∀ o, mode = some o → Schedule cfg o) (who : Who) (lookup : String → Option String) (p q : PState K α) (v : PyVal K)
    (hnd : (Dict.keys p.store).Nodup) (h : fullRun fd cfg mode true who lookup p = some (v, q)) (n : String) (hn : n ∈ Dict.keys p.store)
    (hne : n ≠ who.res) (hlk : ∀ key, lookup key ≠ some n) (hno : ∀ params, ∀ o ∈ cfg.sim params, o.1 ≠ n) :
    ∃ r, q.store.get? n = some r ∧ r.results = [] ∧ r.states = [] ∧ r.resultsLast = [] ∧ r.statesLast = [] := by
  obtain ⟨q0, r0, st, r, h1, h2, h3, h4, h5, h6⟩ := fullRun_some fd cfg mode true who lookup p q v h
  have hexec : ∀ (ops : List (String × Op K)) (L L' : Dict String (LastP K)), (∀ o ∈ ops, o.1 ≠ n) → execL L ops = some L' → L'.get? n = L.get? n := by
    intro ops
    induction ops with
    | nil => intro L L' _ he; cases he; rfl
    | cons e os ih =>
      obtain ⟨m, o⟩ := e
      intro L L' hops he
      simp only [execL] at he
      cases hLm : L.get? m with
      | none => rw [hLm] at he; cases he
      | some x =>
        rw [hLm] at he
        dsimp only at he
        cases ho : execOpL x o with
        | none => rw [ho] at he; cases he
        | some x' =>
          rw [ho] at he
          rw [ih _ _ (fun o' ho' => hops o' (List.mem_cons_of_mem _ ho')) he, Dict.get?_set_ne _ _ _ _ (hops (m, o) List.mem_cons_self)]
  obtain ⟨cr, r', k1, k2, k3, k4, k5⟩ := run_inv_obj fd cfg hwf mode hm true p q0 hnd h1 n (fun cr => cr = ([], []))
    (fun params L l cr cr' he hL ho hi => by
      rw [hexec _ _ _ (hno params) he, emptyLast_get _ _ hn] at hL
      cases hL
      subst hi
      simpa [orgC, appendAll] using ho.symm) {} (start_get _ _ hn) rfl
  subst k1
  have k2 : some (([], []) : Core K) = some (r'.results, r'.states) := k2
  simp only [Option.some.injEq, Prod.mk.injEq] at k2
  obtain ⟨rr, g1, -, -, -, g5⟩ := copyStates_get lookup _ (run_nodup fd cfg hwf mode hm p q0 hnd h1 who.res r0 h2) _ _ h3 n r' k3
  have hrr := g5 fun key _ => hlk key
  subst hrr
  refine ⟨rr, ?_, k2.1.symm, k2.2.symm, by rw [k4, ← k2.1], by rw [k5, ← k2.2]⟩
  rcases h6 with ⟨-, h7⟩ | ⟨-, -, h7⟩
  · rw [h7]; exact g1
  · rw [h7, Dict.get?_set_ne _ _ _ _ (Ne.symm hne)]; exact g1

theorem reShape_nil (inds : List Nat) (h : ∀ n ∈ inds, 0 < n) : reShape ([] : List (PyVal K)) inds 0 = none := by
  induction inds with
  | nil => rfl
  | cons n rest ih =>
    obtain ⟨m, rfl⟩ : ∃ m, n = m + 1 := ⟨n - 1, by have := h n List.mem_cons_self; omega⟩
    cases rest with
    | nil => simp [reShape, reShapeLeaf]
    | cons k rest =>
      simp only [reShape, repeatCollect]
      rw [ih fun x hx => h x (List.mem_cons_of_mem _ hx)]

/-- After such a run every further run with `resetRes=False` raises, because the empty list that was inserted for the return value cannot be
reshaped; the sweeps may be others by then. -/
theorem C88_rerun_raises [Field K] (fd : FloatDiv) (cfg cfg2 : Cfg K α) (hwf : cfg.WF) (hwf2 : cfg2.WF) (mode mode2 : Option (List Nat))
    (hm : ∀ o, mode = some o → Schedule cfg o) (hm2 : ∀ o, mode2 = some o → Schedule cfg2 o) (who : Who)
    (lookup : String → Option String) (p q : PState K α) (v : PyVal K)
    (hnd : (Dict.keys p.store).Nodup) (protos : List PInfo) (traj traj2 : (String → α) → List (Nat → PyVal K))
    (hst : StoresStates cfg who.res protos traj) (hst2 : StoresStates cfg2 who.res protos traj2)
    (h : fullRun fd cfg mode true who lookup p = some (v, q))
    (hno : ∀ pr ∈ protos, pr.keep = true → (if pr.internal then pr.owner else pr.name) ≠ who.super.getD who.name)
    (hpos : ∀ n ∈ axes cfg2.sweeps, 0 < n) (params : String → α) :
    fullRun fd cfg2 mode2 false who lookup ⟨params, q.store⟩ = none := by
  obtain ⟨-, r, hr, hrs⟩ := C88_returns_nothing fd cfg hwf mode hm who lookup p q v hnd protos traj hst h hno
  have hndq : (Dict.keys q.store).Nodup := by
    obtain ⟨q0, r0, st, r, h1, h2, h3, h4, h5, h6⟩ := fullRun_some fd cfg mode true who lookup p q v h
    have hk : ∀ (d : Dict String (PyVal K)) (s s' : Store K), copyStates lookup d s = some s' → (Dict.keys s).Nodup → (Dict.keys s').Nodup := by
      intro d
      induction d with
      | nil => intro s s' hc hs; cases hc; exact hs
      | cons e d ih =>
        obtain ⟨k, u⟩ := e
        intro s s' hc hs
        simp only [copyStates] at hc
        split at hc
        · cases hc
        · split at hc
          · cases hc
          · exact ih _ _ hc (Dict.nodup_keys_set _ _ _ hs)
    have hst := hk _ _ _ h3 (by rw [(run_inv fd cfg mode true p q0 h1).1]; exact hnd)
    rcases h6 with ⟨-, h7⟩ | ⟨-, -, h7⟩
    · rw [h7]; exact hst
    · rw [h7]; exact Dict.nodup_keys_set _ _ _ hst
  have hrun : run fd cfg2 mode2 false ⟨params, q.store⟩ = none := by
    cases hq : run fd cfg2 mode2 false ⟨params, q.store⟩ with
    | none => rfl
    | some q2 =>
      exfalso
      have hn : who.res ∈ Dict.keys q.store := (Dict.mem_keys_iff _ _).mpr ⟨r, hr⟩
      obtain ⟨cr, r2, k1, k2, -⟩ := run_inv_obj fd cfg2 hwf2 mode2 hm2 false ⟨params, q.store⟩ q2 hndq hq who.res
        (fun cr => cr.2.get? (who.super.getD who.name ++ "Results") = some (.list []))
        (fun pa L l cr cr' he hL ho hi => by
          have hcont : content who.res (who.super.getD who.name ++ "Results") (cfg2.sim pa) = [] := by
            rw [hst2, content_traj_none]
            exact .inr fun pr hp hk he => hno pr hp hk ((append_results _ _).mp he)
          obtain ⟨l', g1, g2, g3⟩ := execL_states (cfg2.sim pa) _ L who.res (who.super.getD who.name ++ "Results") ([], [], []) [] he
            (emptyLast_get _ _ hn) rfl (by simp [Dict.keys])
          rw [hL] at g1; cases g1
          rw [hcont] at g2
          have g2 : Dict.get? l.2.2 (who.super.getD who.name ++ "Results") = none := g2
          simp only [orgC] at ho
          cases h1 : appendAll cr.1 l.1 with
          | none => rw [h1] at ho; cases ho
          | some res =>
            rw [h1] at ho
            simp only [Option.bind_some, Option.map_eq_some_iff] at ho
            obtain ⟨sts, hs, rfl⟩ := ho
            have hother : ∀ (last full full' : Dict String (PyVal K)) (key : String), appendAll full last = some full' → last.get? key = none →
                full'.get? key = full.get? key := by
              intro last
              induction last with
              | nil => intro full full' key ha _; cases ha; rfl
              | cons e rest ih =>
                obtain ⟨k, u⟩ := e
                intro full full' key ha hl
                simp only [appendAll] at ha
                simp only [Dict.get?] at hl
                by_cases hk : k = key
                · rw [if_pos hk] at hl; cases hl
                · rw [if_neg hk] at hl
                  cases h2 : appendTo full k u with
                  | none => rw [h2] at ha; cases ha
                  | some f =>
                    rw [h2] at ha
                    rw [ih f full' key ha hl, appendTo_ne full f k key u h2 hk]
            dsimp only
            rw [hother _ _ _ _ hs g2]; exact hi)
        r (by simpa [start] using hr) hrs
      simp only [finC] at k2
      cases h1 : mapValues (finaliseVal (prepare {} cfg2.sweeps).inds) cr.1 with
      | none => rw [h1] at k2; cases k2
      | some res =>
        rw [h1] at k2
        simp only [Option.bind_some, Option.map_eq_some_iff] at k2
        obtain ⟨sts, hs, -⟩ := k2
        have hmem : who.super.getD who.name ++ "Results" ∈ Dict.keys sts := by
          rw [keys_mapValues _ _ _ hs]; exact (Dict.mem_keys_iff _ _).mpr ⟨_, k1⟩
        obtain ⟨w, hw⟩ := (Dict.mem_keys_iff _ _).mp hmem
        rw [mapValues_get? _ _ _ hs, k1] at hw
        simp only [Option.bind_some, finaliseVal, finalise] at hw
        by_cases hi : (prepare {} cfg2.sweeps).inds = []
        · rw [if_pos hi] at hw; cases hw
        · rw [if_neg hi] at hw
          have hne : cfg2.sweeps ≠ [] := by
            intro he; rw [he] at hi; exact hi rfl
          rw [prepare_inds _ _ hne, reShape_nil _ (by simpa using hpos)] at hw
          cases hw
  simp only [fullRun, hrun]

/-! ### Examples -/

/-- A simulation of a system `"s"` with its free evolution and one of its own protocols. -/
def retProtos : List PInfo := [⟨0, "freeEvol", true, "s", true⟩, ⟨1, "p", false, "s", true⟩]

/-- Two points of a sweep, two time points; a state is `[parameter, protocol, time]`. -/
def retTraj (P : String → ℚ) : List (Nat → PyVal ℚ) :=
  [fun i => .list [.atom (P "freq"), .atom i, .atom 0], fun i => .list [.atom (P "freq"), .atom i, .atom 1]]

def retCfg : Cfg ℚ ℚ where
  sweeps := [⟨[10, 20], false⟩]
  targets := ["freq"]
  sim := fun P => (retTraj P).flatMap (storeOps "simResults" retProtos)

/-- The result objects of the simulation, of the system, of the two protocols and of some other system that has been simulated before. -/
def retState : PState ℚ ℚ := ⟨fun _ => 1, [("simResults", {}), ("sResults", {}), ("pResults", {}),
  ("other", { states := [("otherResults", .list [.atom 5])], statesLast := [("otherResults", .list [.atom 5])] })]⟩

def retLookup (k : String) : Option String := if k = "sResults" ∨ k = "pResults" then some k else none

example : StoresStates retCfg "simResults" retProtos retTraj ∧ (∀ P, retTraj P ≠ []) ∧ ((retProtos.filter (·.keep)).map (·.key)).Nodup ∧
    retCfg.WF ∧ (Dict.keys retState.store).Nodup :=
  ⟨fun _ _ _ => rfl, fun _ => by simp [retTraj], by decide, rfl, by decide⟩

/-- The simulation of the system returns the free evolution, nested by the sweep. -/
example : (fullRun Sweep.exactDiv retCfg none true ⟨"sim", "simResults", some "s"⟩ retLookup retState).map (·.1) =
    some (.list [.list [.list [.atom 10, .atom 0, .atom 0], .list [.atom 10, .atom 0, .atom 1]],
      .list [.list [.atom 20, .atom 0, .atom 0], .list [.atom 20, .atom 0, .atom 1]]]) := by rfl

/-- The same simulation without an owner returns nothing although the same states are computed, and the results of the other system are gone. -/
example : (fullRun Sweep.exactDiv retCfg none true ⟨"sim", "simResults", none⟩ retLookup retState).map (·.1) = some (.list []) ∧
    (fullRun Sweep.exactDiv retCfg none true ⟨"sim", "simResults", none⟩ retLookup retState).bind
      (fun x => (x.2.store.get? "other").map (·.states)) = some [] ∧
    ((fullRun Sweep.exactDiv retCfg none true ⟨"sim", "simResults", none⟩ retLookup retState).bind
      fun x => fullRun Sweep.exactDiv retCfg none false ⟨"sim", "simResults", none⟩ retLookup x.2).isSome = false := by
  refine ⟨rfl, rfl, rfl⟩

end Verif.Results
