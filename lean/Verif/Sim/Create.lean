import Verif.Sim.FreeEvol

/-!
# C76: which evolutions a simulation runs

The methods with which systems and protocols get into a simulation (`classes/QSim.py:175-228, 264-307`, `classes/QSystem.py:537-544`),
and the beginning of `run` (`classes/QSim.py:344-346`), on top of the model of C52 with its simplifications.
-/
namespace Verif.Sim.FreeEvol

/-- The calls. -/
inductive Call where
  /-- `addQSystems(s, Protocol=p)` or `addSubSys(s, Protocol=p)` with a system (`QSim.py:193-206, 291-298`). -/
  | add (s : ℕ) (p : Option ℕ)
  /-- The same with a list of systems (`QSim.py:190-192`). -/
  | addList (l : List ℕ) (p : Option ℕ)
  /-- `createQSystems(cls, Protocol=p)`, where `s` is the new system (`QSim.py:222-228`). -/
  | create (s : ℕ) (p : Option ℕ)
  /-- `createSubSys(cls, Protocol=p)`, where `s` is the new system (`QSim.py:300-307`). -/
  | createSub (s : ℕ) (p : Option ℕ)
  /-- `addProtocol(p, system=s, protocolRemove=r)` with a protocol or nothing to remove (`QSim.py:264-288`). -/
  | addProto (p s : ℕ) (r : Option ℕ)
  deriving DecidableEq

/-- The effect of a call on the dictionary; `none` is the `TypeError` of `addProtocol`.
* With a list, the argument `Protocol` is not passed on (`QSim.py:192`).
* `createSubSys` calls `qBase.createSubSys`, which calls the overridden `addSubSys` without `Protocol`, and then `createQSystems` with the
  system that is in the simulation by then (`QSim.py:305-306`).
* `removeProtocol` pops the given key if it is there (`QSim.py:258`); what it does to sweeps is C36. -/
def apply (owner : ℕ → ℕ) (d : Sub) : Call → Option Sub
  | .add s p => some (addQSystems d s p)
  | .addList l _ => some (l.foldl (fun d s => addQSystems d s none) d)
  | .create s p => some (addQSystems d s p)
  | .createSub s p => some (addQSystems (addQSystems d s none) s p)
  | .addProto p s r =>
    match addProtocol owner d p s with
    | none => none
    | some d1 => match r with
      | none => some d1
      | some q => some (Dict.del d1 (.proto q))

/-- Several calls; after an exception the dictionary is as it was before the call. -/
def applyAll (owner : ℕ → ℕ) : List Call → Sub → Sub
  | [], d => d
  | c :: cs, d => applyAll owner cs ((apply owner d c).getD d)

/-- The beginning of `run` (`QSim.py:344-346`): an empty simulation gets the object it belongs to. -/
def prepare (free : ℕ → ℕ) (super : ℕ) (d : Sub) : Option Sub :=
  freeEvol free (if d = [] then addQSystems d super none else d)

/-! ### Specification -/

/-- The evolutions that are asked for, as pairs of protocol and system: a system that is given without a protocol evolves freely, unless it
is there already; a protocol is run once. -/
def asked (free : ℕ → ℕ) (l : List (ℕ × ℕ)) (s : ℕ) : Option ℕ → List (ℕ × ℕ)
  | none => if s ∈ l.map Prod.snd then l else l ++ [(free s, s)]
  | some p => if (p, s) ∈ l then l else l ++ [(p, s)]

/-- All calls. -/
def askedAll (free : ℕ → ℕ) : List Call → List (ℕ × ℕ) → List (ℕ × ℕ)
  | [], l => l
  | .add s p :: cs, l => askedAll free cs (asked free l s p)
  | .addList ss p :: cs, l => askedAll free cs (ss.foldl (fun l s => asked free l s p) l)
  | .create s p :: cs, l => askedAll free cs (asked free l s p)
  | .createSub s p :: cs, l => askedAll free cs (asked free l s p)
  | .addProto p s none :: cs, l => askedAll free cs (asked free l s (some p))
  | .addProto p s (some q) :: cs, l => askedAll free cs ((asked free l s (some p)).filter fun e => decide (e.1 ≠ q))

/-- The protocols of a dictionary after the preparation. -/
def pairs (d : Sub) : List (ℕ × ℕ) := d.filterMap fun e => match e.1 with
  | .proto p => some (p, e.2)
  | .name _ => none

/-! ### Calls that do what is asked for -/

/-- Own protocols only, free evolutions are not given explicitly, no protocols for lists or for `createSubSys`, nothing to remove. -/
def Plain (owner free : ℕ → ℕ) : Call → Prop
  | .add s p => ∀ q, p = some q → owner q = s ∧ q ≠ free s
  | .addList _ p => p = none
  | .create s p => ∀ q, p = some q → owner q = s ∧ q ≠ free s
  | .createSub _ p => p = none
  | .addProto p s r => (owner p = s ∧ p ≠ free s) ∧ r = none

/-- What holds between the dictionary and what was asked for. -/
structure Rel (owner free : ℕ → ℕ) (d : Sub) (l : List (ℕ × ℕ)) : Prop where
  wf : WF owner d
  none_free : ∀ s, Key.proto (free s) ∉ Dict.keys d
  eq : d.map (target free) = l.map fun e => (Key.proto e.1, e.2)

theorem Rel.snd {owner free : ℕ → ℕ} {d : Sub} {l : List (ℕ × ℕ)} (h : Rel owner free d l) :
    d.map Prod.snd = l.map Prod.snd := by
  have h1 : d.map Prod.snd = (d.map (target free)).map Prod.snd := by
    rw [List.map_map]
    refine List.map_congr_left ?_
    rintro ⟨k, v⟩ -
    cases k <;> rfl
  rw [h1, h.eq, List.map_map]
  rfl

theorem rel_none {owner free : ℕ → ℕ} (d : Sub) {l : List (ℕ × ℕ)} (h : Rel owner free d l) (s : ℕ) :
    Rel owner free (addQSystems d s none) (asked free l s none) := by
  simp only [addQSystems, asked, ← h.snd]
  by_cases hs : s ∈ d.map Prod.snd
  · rw [if_pos hs, if_pos hs]; exact h
  · rw [if_neg hs, if_neg hs]
    have hk : Key.name s ∉ Dict.keys d := by
      intro hk
      obtain ⟨⟨k, v⟩, he, hke⟩ := List.mem_map.1 hk
      simp only at hke
      subst hke
      have := h.wf.name s v he
      subst this
      exact hs (List.mem_map.2 ⟨_, he, rfl⟩)
    rw [set_append_new d _ _ hk]
    refine ⟨⟨?_, ?_, ?_⟩, ?_, ?_⟩
    · simp only [Dict.keys, List.map_append, List.map_cons, List.map_nil]
      rw [List.nodup_append]
      refine ⟨h.wf.nodup, by simp, ?_⟩
      intro a ha b hb e
      simp only [List.mem_singleton] at hb
      subst hb; subst e; exact hk ha
    · intro a v hv
      rcases List.mem_append.1 hv with hv | hv
      · exact h.wf.name a v hv
      · simp only [List.mem_singleton, Prod.mk.injEq, Key.name.injEq] at hv; rw [hv.1, hv.2]
    · intro a v hv
      rcases List.mem_append.1 hv with hv | hv
      · exact h.wf.proto a v hv
      · simp at hv
    · intro t ht
      simp only [Dict.keys, List.map_append, List.mem_append, List.map_cons, List.map_nil, List.mem_singleton] at ht
      rcases ht with ht | ht
      · exact h.none_free t ht
      · simp at ht
    · rw [List.map_append, List.map_append, h.eq]
      rfl

theorem rel_some {owner free : ℕ → ℕ} (hf : ∀ s, owner (free s) = s) (d : Sub) {l : List (ℕ × ℕ)} (h : Rel owner free d l) {s p : ℕ}
    (ho : owner p = s) (hp : p ≠ free s) :
    Rel owner free (addQSystems d s (some p)) (asked free l s (some p)) := by
  have hiff : (p, s) ∈ l ↔ (Key.proto p, s) ∈ d := by
    have h1 : (p, s) ∈ l ↔ (Key.proto p, s) ∈ l.map fun e => (Key.proto e.1, e.2) := by
      simp
    rw [h1, ← h.eq]
    constructor
    · intro hm
      obtain ⟨⟨k, v⟩, he, hke⟩ := List.mem_map.1 hm
      cases k with
      | proto q =>
        simp only [target, Prod.mk.injEq, Key.proto.injEq] at hke
        rw [← hke.1, ← hke.2]; exact he
      | name t =>
        simp only [target, Prod.mk.injEq, Key.proto.injEq] at hke
        have hv := h.wf.name t v he
        exact absurd hke.1.symm (by rw [hke.2]; exact hp)
    · intro hm
      exact List.mem_map.2 ⟨_, hm, rfl⟩
  simp only [addQSystems, asked]
  by_cases hm : (p, s) ∈ l
  · rw [if_pos hm, set_same d _ _ h.wf.nodup (hiff.1 hm)]
    exact h
  · rw [if_neg hm]
    have hk : Key.proto p ∉ Dict.keys d := by
      intro hk
      obtain ⟨⟨k, v⟩, he, hke⟩ := List.mem_map.1 hk
      simp only at hke
      subst hke
      have := h.wf.proto p v he
      rw [ho] at this
      subst this
      exact hm (hiff.2 he)
    rw [set_append_new d _ _ hk]
    refine ⟨⟨?_, ?_, ?_⟩, ?_, ?_⟩
    · simp only [Dict.keys, List.map_append, List.map_cons, List.map_nil]
      rw [List.nodup_append]
      refine ⟨h.wf.nodup, by simp, ?_⟩
      intro a ha b hb e
      simp only [List.mem_singleton] at hb
      subst hb; subst e; exact hk ha
    · intro a v hv
      rcases List.mem_append.1 hv with hv | hv
      · exact h.wf.name a v hv
      · simp at hv
    · intro a v hv
      rcases List.mem_append.1 hv with hv | hv
      · exact h.wf.proto a v hv
      · simp only [List.mem_singleton, Prod.mk.injEq, Key.proto.injEq] at hv; rw [hv.1, hv.2, ho]
    · intro t ht
      simp only [Dict.keys, List.map_append, List.mem_append, List.map_cons, List.map_nil, List.mem_singleton] at ht
      rcases ht with ht | ht
      · exact h.none_free t ht
      · simp only [Key.proto.injEq] at ht
        have : s = t := by rw [← ho, ← ht, hf]
        exact hp (by rw [← ht, this])
    · rw [List.map_append, List.map_append, h.eq]
      rfl

theorem rel_list {owner free : ℕ → ℕ} : ∀ (ss : List ℕ) (d : Sub) {l : List (ℕ × ℕ)}, Rel owner free d l →
    Rel owner free (ss.foldl (fun d s => addQSystems d s none) d) (ss.foldl (fun l s => asked free l s none) l)
  | [], _, _, h => h
  | s :: ss, d, _, h => rel_list ss _ (rel_none d h s)

theorem rel_all {owner free : ℕ → ℕ} (hf : ∀ s, owner (free s) = s) : ∀ (cs : List Call) (d : Sub) {l : List (ℕ × ℕ)},
    Rel owner free d l → (∀ c ∈ cs, Plain owner free c) → Rel owner free (applyAll owner cs d) (askedAll free cs l)
  | [], _, _, h, _ => h
  | c :: cs, d, l, h, hc => by
    have hcs := fun x hx => hc x (List.mem_cons_of_mem _ hx)
    have hc0 := hc c (by simp)
    match c with
    | .add s none => exact rel_all hf cs _ (rel_none d h s) hcs
    | .add s (some p) => exact rel_all hf cs _ (rel_some hf d h (hc0 p rfl).1 (hc0 p rfl).2) hcs
    | .addList ss p =>
      simp only [Plain] at hc0
      subst hc0
      exact rel_all hf cs _ (rel_list ss d h) hcs
    | .create s none => exact rel_all hf cs _ (rel_none d h s) hcs
    | .create s (some p) => exact rel_all hf cs _ (rel_some hf d h (hc0 p rfl).1 (hc0 p rfl).2) hcs
    | .createSub s p =>
      simp only [Plain] at hc0
      subst hc0
      have h1 := rel_none d h s
      have h2 : addQSystems (addQSystems d s none) s none = addQSystems d s none := by
        have hs : s ∈ (addQSystems d s none).map Prod.snd := by
          simp only [addQSystems]
          split
          · assumption
          · exact List.mem_map.2 ⟨(Key.name s, s), Dict.mem_of_get? _ _ _ (Dict.get?_set_self _ _ _), rfl⟩
        generalize addQSystems d s none = d1 at hs ⊢
        simp only [addQSystems, if_pos hs]
      show Rel owner free (applyAll owner cs (addQSystems (addQSystems d s none) s none)) _
      rw [h2]
      exact rel_all hf cs _ h1 hcs
    | .addProto p s r =>
      simp only [Plain] at hc0
      obtain ⟨⟨ho, hp⟩, rfl⟩ := hc0
      have h1 := rel_some hf d h ho hp
      have h2 : (apply owner d (.addProto p s none)).getD d = addQSystems d s (some p) := by
        simp [apply, addProtocol, ho]
      show Rel owner free (applyAll owner cs ((apply owner d (.addProto p s none)).getD d)) _
      rw [h2]
      exact rel_all hf cs _ h1 hcs

/-- **C76, partial.** For every sequence of calls that add systems with their own protocols, a run evolves exactly the requested pairs of
protocol and system, each once and in the order of the calls; a simulation to which nothing was added evolves the object it belongs to
freely.  Missing: protocols given with lists or to `createSubSys`, protocols to be removed, explicit free evolutions, and calls after a run
(see the theorems below). -/
theorem C76_evolutions_partial (owner free : ℕ → ℕ) (hf : ∀ s, owner (free s) = s) (super : ℕ) (cs : List Call)
    (hc : ∀ c ∈ cs, Plain owner free c) :
    ∃ d, prepare free super (applyAll owner cs []) = some d ∧
      pairs d = (if askedAll free cs [] = [] then [(free super, super)] else askedAll free cs []) ∧
      d.length = (pairs d).length := by
  have h := rel_all hf cs [] (l := []) ⟨⟨by simp [Dict.keys], by simp, by simp⟩, by simp [Dict.keys], rfl⟩ hc
  generalize applyAll owner cs [] = D at h ⊢
  generalize askedAll free cs [] = L at h ⊢
  have key : ∀ (D : Sub) (L : List (ℕ × ℕ)), Rel owner free D L → ∃ d, freeEvol free D = some d ∧ pairs d = L ∧
      d.length = (pairs d).length := by
    intro D L h
    have hall : D.filter (fun e => !superfluous free D e) = D := by
      rw [List.filter_eq_self]
      rintro ⟨a, b⟩ -
      cases a with
      | proto p => rfl
      | name s => simpa [superfluous] using h.none_free b
    have hp : pairs (D.map (target free)) = L := by
      rw [h.eq, pairs, List.filterMap_map]
      have : ((fun e : Key × ℕ => match e.1 with
          | .proto p => some (p, e.2)
          | .name _ => none) ∘ fun e : ℕ × ℕ => (Key.proto e.1, e.2)) = some := by
        funext e; rfl
      rw [this, List.filterMap_some]
    refine ⟨D.map (target free), by rw [C52_result owner free hf D h.wf, hall], hp, ?_⟩
    rw [hp, h.eq, List.length_map]
  have hnil : D = [] ↔ L = [] := by
    have := congrArg List.length h.snd
    simp only [List.length_map] at this
    rw [← List.length_eq_zero_iff, ← List.length_eq_zero_iff, this]
  unfold prepare
  by_cases h0 : L = []
  · have h0' := hnil.2 h0
    rw [if_pos h0', if_pos h0]
    have h1 := rel_none D h super
    obtain ⟨d, e1, e2, e3⟩ := key _ _ h1
    refine ⟨d, e1, ?_, e3⟩
    rw [e2, h0]
    simp [asked]
  · rw [if_neg (fun e => h0 (hnil.1 e)), if_neg h0]
    exact key D L h

/-- System 1 freely, system 2 with protocol 7, system 1 again with its protocol 8. -/
example : (prepare (· + 100) 0 (applyAll (fun p => if p ≥ 100 then p - 100 else p % 6)
    [.create 1 none, .add 2 (some 8), .addProto 7 1 none, .addList [1, 2, 3] none] [])).map pairs =
      some [(101, 1), (8, 2), (7, 1), (103, 3)] := by decide +kernel

/-- Finding: a system created with `createSubSys(cls, Protocol=p)` is evolved twice, freely and with the protocol, whatever the simulation
contains already; with `createQSystems(cls, Protocol=p)` it is evolved with the protocol only. -/
theorem C76_created_twice (owner free : ℕ → ℕ) (hf : ∀ s, owner (free s) = s) (super : ℕ) (d : Sub) (hw : WF owner d)
    (hnf : ∀ s, Key.proto (free s) ∉ Dict.keys d) {s p : ℕ} (hs : s ∉ d.map Prod.snd) (ho : owner p = s) (hp : p ≠ free s) :
    ∃ d1 d2 l, apply owner d (.createSub s (some p)) = some d1 ∧ apply owner d (.create s (some p)) = some d2 ∧
      (prepare free super d1).map pairs = some (l ++ [(free s, s), (p, s)]) ∧
      (prepare free super d2).map pairs = some (l ++ [(p, s)]) := by
  have hrel : Rel owner free d (pairs (d.map (target free))) := by
    refine ⟨hw, hnf, ?_⟩
    clear hw hnf hs
    induction d with
    | nil => rfl
    | cons e d ih =>
      obtain ⟨k, v⟩ := e
      rw [List.map_cons, ih]
      cases k <;> simp [pairs, target]
  have hmem : s ∉ (pairs (d.map (target free))).map Prod.snd := by rw [← hrel.snd]; exact hs
  have hprep : ∀ {D : Sub} {L : List (ℕ × ℕ)}, Rel owner free D L → L ≠ [] → (prepare free super D).map pairs = some L := by
    intro D L h hne
    have hall : D.filter (fun e => !superfluous free D e) = D := by
      rw [List.filter_eq_self]
      rintro ⟨a, b⟩ -
      cases a with
      | proto p => rfl
      | name s => simpa [superfluous] using h.none_free b
    have hD : D ≠ [] := by
      rintro rfl
      have := h.snd
      simp at this
      exact hne this
    unfold prepare
    rw [if_neg hD, C52_result owner free hf D h.wf, hall, Option.map_some, h.eq, pairs, List.filterMap_map]
    have : ((fun e : Key × ℕ => match e.1 with
        | .proto p => some (p, e.2)
        | .name _ => none) ∘ fun e : ℕ × ℕ => (Key.proto e.1, e.2)) = some := by
      funext e; rfl
    rw [this, List.filterMap_some]
  refine ⟨_, _, pairs (d.map (target free)), rfl, rfl, ?_, ?_⟩
  · have h1 := rel_some hf _ (rel_none d hrel s) ho hp
    have hL : asked free (asked free (pairs (d.map (target free))) s none) s (some p) =
        pairs (d.map (target free)) ++ [(free s, s), (p, s)] := by
      rw [asked, if_neg hmem, asked, if_neg]
      · simp
      · intro hm
        rcases List.mem_append.1 hm with hm | hm
        · exact hmem (List.mem_map.2 ⟨_, hm, rfl⟩)
        · simp only [List.mem_singleton, Prod.mk.injEq] at hm; exact hp hm.1
    rw [hL] at h1
    exact hprep h1 (by simp)
  · have h1 := rel_some hf d hrel ho hp
    have hL : asked free (pairs (d.map (target free))) s (some p) = pairs (d.map (target free)) ++ [(p, s)] := by
      rw [asked, if_neg fun hm => hmem (List.mem_map.2 ⟨_, hm, rfl⟩)]
    rw [hL] at h1
    exact hprep h1 (by simp)

example : (prepare (· + 100) 0 (addQSystems (addQSystems [(.name 3, 3)] 1 none) 1 (some 7))).map pairs =
    some [(103, 3), (101, 1), (7, 1)] := by decide

/-- Finding: a protocol given together with a list of systems is ignored. -/
theorem C76_list_ignores (owner : ℕ → ℕ) (d : Sub) (l : List ℕ) (p : ℕ) :
    apply owner d (.addList l (some p)) = apply owner d (.addList l none) := rfl

example : apply id [] (.addList [1, 2] (some 7)) = some [(.name 1, 1), (.name 2, 2)] := by decide

/-- Finding: whether the system also evolves freely depends on what was run before.  A protocol that is added to the simulation of a system
replaces the free evolution if the simulation was never run, and is added to it if it was. -/
theorem C76_after_run (owner free : ℕ → ℕ) {s p : ℕ} (ho : owner p = s) (hp : p ≠ free s) :
    (prepare free s ((apply owner [] (.addProto p s none)).getD [])).map pairs = some [(p, s)] ∧
    ∃ d, prepare free s [] = some d ∧
      (prepare free s ((apply owner d (.addProto p s none)).getD d)).map pairs = some [(free s, s), (p, s)] := by
  have hp' : ¬ free s = p := fun e => hp e.symm
  refine ⟨?_, [(.proto (free s), s)], ?_, ?_⟩ <;>
    simp [prepare, apply, addProtocol, ho, addQSystems, freeEvol, loop, step, Dict.set, Dict.keys, Dict.get?, Dict.del, pairs, hp, hp']

/-- Finding: the free evolution of a system cannot be removed while adding a protocol before the first run, since the key is a placeholder
until then; afterwards it can. -/
theorem C76_remove_free (owner free : ℕ → ℕ) {s p : ℕ} (ho : owner p = s) (hp : p ≠ free s) :
    (prepare free s ((apply owner (addQSystems [] s none) (.addProto p s (some (free s)))).getD [])).map pairs =
      some [(free s, s), (p, s)] ∧
    ∃ d, prepare free s (addQSystems [] s none) = some d ∧
      (prepare free s ((apply owner d (.addProto p s (some (free s)))).getD [])).map pairs = some [(p, s)] := by
  have hp' : ¬ free s = p := fun e => hp e.symm
  refine ⟨?_, [(.proto (free s), s)], ?_, ?_⟩ <;>
    simp [prepare, apply, addProtocol, ho, addQSystems, freeEvol, loop, step, Dict.set, Dict.keys, Dict.get?, Dict.del, pairs, hp, hp']

end Verif.Sim.FreeEvol
