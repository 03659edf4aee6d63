import Verif.Py.Dict
import Mathlib.Data.List.Nodup

/-!
# C52: preparing a simulation

Model of `Simulation._freeEvol` and of the methods that fill the dictionary of a simulation (`classes/QSim.py:137-156, 175-220, 264-288`).
Simplifications: systems and protocols are identities; the placeholder key of a system is its name, and names are unique, so it is
represented by the system; `free s` is the free evolution that belongs to the system `s` and `owner p` is `p.superSys`.
-/
namespace Verif.Sim.FreeEvol

/-- A key of the dictionary: the name of a system (placeholder) or a protocol. -/
inductive Key where
  | name (s : ℕ)
  | proto (p : ℕ)
  deriving DecidableEq

/-- `simulation.subSys`. -/
abbrev Sub := Dict Key ℕ

/-- One pass of the loop of `_freeEvol` (`QSim.py:150-156`); `none` is a `KeyError`.  The value is popped before it is stored again. -/
def step (free : ℕ → ℕ) (d : Sub) (k : Key) : Option Sub :=
  match Dict.get? d k with
  | none => none
  | some s =>
    match k with
    | .name _ => some (Dict.set (Dict.del d k) (.proto (free s)) s)
    | .proto _ => some (Dict.set (Dict.del d k) k s)

/-- The loop over a list of keys. -/
def loop (free : ℕ → ℕ) : List Key → Sub → Option Sub
  | [], d => some d
  | k :: ks, d => (step free d k).bind (loop free ks)

/-- `_freeEvol` (`QSim.py:137-156`): the keys are listed before the loop starts. -/
def freeEvol (free : ℕ → ℕ) (d : Sub) : Option Sub := loop free (Dict.keys d) d

/-- `addQSystems(s, Protocol)` as far as the dictionary is concerned (`QSim.py:193-206`): without a protocol nothing happens for a system
that is there already. -/
def addQSystems (d : Sub) (s : ℕ) : Option ℕ → Sub
  | some p => Dict.set d (.proto p) s
  | none => if s ∈ d.map Prod.snd then d else Dict.set d (.name s) s

/-- `addProtocol(p, s)` (`QSim.py:264-288`): `none` is the `TypeError` for a protocol of another system. -/
def addProtocol (owner : ℕ → ℕ) (d : Sub) (p s : ℕ) : Option Sub :=
  if owner p = s then some (addQSystems d s (some p)) else none

/-- What a simulation may contain: distinct keys, a placeholder belongs to its system, and protocols belong to their systems. -/
structure WF (owner : ℕ → ℕ) (d : Sub) : Prop where
  nodup : (Dict.keys d).Nodup
  name : ∀ s v, (Key.name s, v) ∈ d → v = s
  proto : ∀ p v, (Key.proto p, v) ∈ d → v = owner p

/-- The protocol an entry ends up with. -/
def target (free : ℕ → ℕ) : Key × ℕ → Key × ℕ
  | (.name _, s) => (.proto (free s), s)
  | (.proto p, s) => (.proto p, s)

/-- A placeholder is superfluous if the free evolution of its system was added explicitly as well. -/
def superfluous (free : ℕ → ℕ) (d : Sub) : Key × ℕ → Bool
  | (.name _, s) => decide (Key.proto (free s) ∈ Dict.keys d)
  | (.proto _, _) => false

/-! ### Auxiliary facts on dictionaries -/

theorem set_append_new (d : Sub) (k : Key) (v : ℕ) (h : k ∉ Dict.keys d) : Dict.set d k v = d ++ [(k, v)] := by
  induction d with
  | nil => rfl
  | cons p d ih =>
    obtain ⟨a, b⟩ := p
    simp only [Dict.keys, List.map_cons, List.mem_cons, not_or] at h
    have : ¬ a = k := fun e => h.1 e.symm
    simp only [Dict.set, this, if_false, List.cons_append]
    rw [ih h.2]

theorem set_same (d : Sub) (k : Key) (v : ℕ) (hn : (Dict.keys d).Nodup) (h : (k, v) ∈ d) : Dict.set d k v = d := by
  induction d with
  | nil => cases h
  | cons p d ih =>
    obtain ⟨a, b⟩ := p
    simp only [Dict.keys, List.map_cons, List.nodup_cons] at hn
    simp only [Dict.set]
    by_cases e : a = k
    · subst e
      rcases List.mem_cons.1 h with h | h
      · simp only [Prod.mk.injEq] at h; simp [h]
      · exact absurd (List.mem_map.2 ⟨_, h, rfl⟩) hn.1
    · have : (k, v) ∈ d := by
        rcases List.mem_cons.1 h with h | h
        · simp only [Prod.mk.injEq] at h; exact absurd h.1.symm e
        · exact h
      simp only [e, if_false, ih hn.2 this]

/-- The loop invariant: what is left to do, followed by what was done. -/
theorem loop_eq (owner free : ℕ → ℕ) (hf : ∀ s, owner (free s) = s) : ∀ (rest done : Sub), WF owner (rest ++ done) →
    (∀ s v, (Key.name s, v) ∉ done) →
    loop free (Dict.keys rest) (rest ++ done) =
      some (done ++ (rest.filter fun e => !superfluous free (rest ++ done) e).map (target free))
  | [], done, _, _ => by simp [loop, Dict.keys]
  | (k, s) :: rest, done, hw, hd => by
    have hn : (Dict.keys ((k, s) :: (rest ++ done))).Nodup := hw.nodup
    simp only [Dict.keys, List.map_cons, List.nodup_cons] at hn
    have hw' : WF owner (rest ++ done) :=
      ⟨hn.2, fun a v h => hw.name a v (List.mem_cons_of_mem _ h), fun a v h => hw.proto a v (List.mem_cons_of_mem _ h)⟩
    have hkeys : Dict.keys ((k, s) :: rest) = k :: Dict.keys rest := rfl
    rw [hkeys]
    simp only [loop, List.cons_append, step, Dict.get?, Dict.del, if_true]
    cases k with
    | proto p =>
      have hnew : Key.proto p ∉ Dict.keys (rest ++ done) := hn.1
      rw [set_append_new _ _ _ hnew, Option.bind_some, List.append_assoc]
      have hw2 : WF owner (rest ++ (done ++ [(Key.proto p, s)])) := by
        refine ⟨?_, ?_, ?_⟩
        · have := hw.nodup
          rw [← List.append_assoc]
          simp only [Dict.keys, List.map_append, List.map_cons, List.map_nil] at this ⊢
          rw [List.cons_append, List.nodup_cons] at this
          rw [List.nodup_append]
          refine ⟨this.2, by simp, ?_⟩
          intro a ha b hb e
          simp only [List.mem_singleton] at hb
          subst hb; subst e
          exact this.1 ha
        · intro a v h
          refine hw.name a v ?_
          simp only [List.mem_append, List.mem_cons, List.not_mem_nil, or_false] at h ⊢
          rcases h with h | h | h
          · exact Or.inl (Or.inr h)
          · exact Or.inr h
          · exact Or.inl (Or.inl h)
        · intro a v h
          refine hw.proto a v ?_
          simp only [List.mem_append, List.mem_cons, List.not_mem_nil, or_false] at h ⊢
          rcases h with h | h | h
          · exact Or.inl (Or.inr h)
          · exact Or.inr h
          · exact Or.inl (Or.inl h)
      rw [loop_eq owner free hf rest (done ++ [(Key.proto p, s)]) hw2 ?_]
      · have hmem : ∀ e, superfluous free (rest ++ (done ++ [(Key.proto p, s)])) e = superfluous free ((Key.proto p, s) :: (rest ++ done)) e := by
          rintro ⟨a, b⟩
          cases a with
          | proto q => rfl
          | name n =>
            simp only [superfluous, Dict.keys, List.map_append, List.map_cons, List.map_nil, List.mem_append, List.mem_cons,
              List.not_mem_nil, or_false, decide_eq_decide]
            constructor
            · rintro (h | h | h)
              · exact Or.inr (Or.inl h)
              · exact Or.inr (Or.inr h)
              · exact Or.inl h
            · rintro (h | h | h)
              · exact Or.inr (Or.inr h)
              · exact Or.inl h
              · exact Or.inr (Or.inl h)
        simp only [hmem]
        have : superfluous free ((Key.proto p, s) :: (rest ++ done)) (Key.proto p, s) = false := rfl
        rw [List.filter_cons]
        simp [this, target]
      · intro a v h
        rcases List.mem_append.1 h with h | h
        · exact hd a v h
        · simp at h
    | name n =>
      have hsn : s = n := hw.name n s (by simp)
      by_cases hin : Key.proto (free s) ∈ Dict.keys (rest ++ done)
      · have hval : (Key.proto (free s), s) ∈ rest ++ done := by
          simp only [Dict.keys, List.mem_map] at hin
          obtain ⟨⟨a, b⟩, h1, h2⟩ := hin
          simp only at h2
          subst h2
          have := hw'.proto _ _ h1
          rw [hf] at this
          rw [← this]
          rw [← this] at h1
          exact this ▸ h1
        rw [set_same _ _ _ hw'.nodup hval, Option.bind_some, loop_eq owner free hf rest done hw' hd]
        have hmem : ∀ e, superfluous free (rest ++ done) e = superfluous free ((Key.name n, s) :: (rest ++ done)) e := by
          rintro ⟨a, b⟩
          cases a with
          | proto q => rfl
          | name m =>
            have : Key.proto (free b) ∈ Dict.keys (rest ++ done) ↔ Key.proto (free b) ∈ Dict.keys ((Key.name n, s) :: (rest ++ done)) := by
              simp only [Dict.keys, List.map_cons, List.mem_cons, reduceCtorEq, false_or]
            exact decide_eq_decide.2 this
        rw [List.filter_cons]
        have : superfluous free ((Key.name n, s) :: (rest ++ done)) (Key.name n, s) = true := by
          rw [← hmem]; simp only [superfluous, hin, decide_true]
        simp only [this, Bool.not_true, Bool.false_eq_true, if_false]
        simp only [hmem]
      · rw [set_append_new _ _ _ hin, Option.bind_some, List.append_assoc]
        have hw2 : WF owner (rest ++ (done ++ [(Key.proto (free s), s)])) := by
          refine ⟨?_, ?_, ?_⟩
          · rw [← List.append_assoc]
            have h1 := hw'.nodup
            simp only [Dict.keys, List.map_append (l₁ := rest ++ done), List.map_cons, List.map_nil] at h1 hin ⊢
            rw [List.nodup_append]
            refine ⟨h1, by simp, ?_⟩
            intro a ha b hb e
            simp only [List.mem_singleton] at hb
            subst hb; subst e
            exact hin ha
          · intro a v h
            rw [← List.append_assoc] at h
            rcases List.mem_append.1 h with h | h
            · exact hw'.name a v h
            · simp at h
          · intro a v h
            rw [← List.append_assoc] at h
            rcases List.mem_append.1 h with h | h
            · exact hw'.proto a v h
            · simp only [List.mem_singleton, Prod.mk.injEq, Key.proto.injEq] at h
              rw [h.1, h.2, hf]
        rw [loop_eq owner free hf rest (done ++ [(Key.proto (free s), s)]) hw2 ?_]
        · have hmem : ∀ e ∈ rest, superfluous free (rest ++ (done ++ [(Key.proto (free s), s)])) e =
              superfluous free ((Key.name n, s) :: (rest ++ done)) e := by
            rintro ⟨a, b⟩ he
            cases a with
            | proto q => rfl
            | name m =>
              have hbm : b = m := hw'.name m b (by simp [he])
              have hne : free b ≠ free s := by
                intro e
                have : b = s := by rw [← hf b, e, hf]
                rw [hbm, hsn] at this
                subst this
                exact hn.1 (List.mem_map.2 ⟨_, List.mem_append_left _ he, rfl⟩)
              simp only [superfluous, Dict.keys, List.map_append, List.map_cons, List.map_nil, List.mem_append, List.mem_cons,
                List.not_mem_nil, or_false, decide_eq_decide, Key.proto.injEq, hne, reduceCtorEq, false_or]
          rw [List.filter_cons]
          have : superfluous free ((Key.name n, s) :: (rest ++ done)) (Key.name n, s) = false := by
            simp only [superfluous, decide_eq_false_iff_not]
            intro h
            simp only [Dict.keys, List.map_cons, List.mem_cons, reduceCtorEq, false_or] at h
            exact hin h
          rw [List.filter_congr fun e he => by rw [hmem e he]]
          simp [this, target]
        · intro a v h
          rcases List.mem_append.1 h with h | h
          · exact hd a v h
          · simp at h

/-! ### C52 -/

/-- **C52 (result).** Preparing a simulation never fails; it replaces every placeholder by the free evolution of its system at the same
position, leaves protocols alone, and drops a placeholder only if its free evolution was added explicitly too. -/
theorem C52_result (owner free : ℕ → ℕ) (hf : ∀ s, owner (free s) = s) (d : Sub) (hw : WF owner d) :
    freeEvol free d = some ((d.filter fun e => !superfluous free d e).map (target free)) := by
  have := loop_eq owner free hf d [] (by simpa using hw) (by simp)
  simpa [freeEvol] using this

/-- **C52 (order), partial.** If no system has both a placeholder and its own free evolution, the sequence of systems stays the same, and
so does the position of every protocol.  Missing: with both, the placeholder is dropped (`C52_result`, `C52_reordered`). -/
theorem C52_order_partial (owner free : ℕ → ℕ) (hf : ∀ s, owner (free s) = s) (d : Sub) (hw : WF owner d)
    (hs : ∀ s, (Key.name s, s) ∈ d → Key.proto (free s) ∉ Dict.keys d) :
    ∃ d', freeEvol free d = some d' ∧ d'.map Prod.snd = d.map Prod.snd ∧
      ∀ (i p s : ℕ), d[i]? = some (Key.proto p, s) → d'[i]? = some (Key.proto p, s) := by
  refine ⟨_, C52_result owner free hf d hw, ?_, ?_⟩ <;>
  · have hall : d.filter (fun e => !superfluous free d e) = d := by
      rw [List.filter_eq_self]
      rintro ⟨a, b⟩ he
      cases a with
      | proto q => rfl
      | name n =>
        have : b = n := hw.name n b he
        subst this
        simp [superfluous, hs b he]
    rw [hall]
    first
      | (rw [List.map_map]
         apply List.map_congr_left
         rintro ⟨a, b⟩ _
         cases a <;> rfl)
      | (intro i p s h
         rw [List.getElem?_map, h]
         rfl)

/-- **C52 (systems and protocols).** The systems are the same ones, the given protocols are all kept with their systems and in their
order, and afterwards every key is a protocol of the system it is stored with. -/
theorem C52_kept (owner free : ℕ → ℕ) (hf : ∀ s, owner (free s) = s) (d d' : Sub) (hw : WF owner d) (h : freeEvol free d = some d') :
    (∀ s, s ∈ d'.map Prod.snd ↔ s ∈ d.map Prod.snd) ∧
    (d.filter fun e => match e.1 with | .proto _ => true | .name _ => false).Sublist d' ∧
    (∀ e ∈ d', ∃ p, e.1 = .proto p ∧ e.2 = owner p) ∧ WF owner d' := by
  have hr := C52_result owner free hf d hw
  rw [h, Option.some.injEq] at hr
  have hform : ∀ e ∈ d', ∃ p, e.1 = .proto p ∧ e.2 = owner p := by
    rw [hr]
    intro e he
    obtain ⟨⟨a, b⟩, h1, rfl⟩ := List.mem_map.1 he
    have h1 := (List.mem_filter.1 h1).1
    cases a with
    | proto q => exact ⟨q, rfl, hw.proto _ _ h1⟩
    | name n => exact ⟨free b, rfl, by simp [target, hf]⟩
  refine ⟨?_, ?_, hform, ?_⟩
  · intro s
    rw [hr]
    constructor
    · intro hs
      obtain ⟨e, he, rfl⟩ := List.mem_map.1 hs
      obtain ⟨⟨a, b⟩, h1, rfl⟩ := List.mem_map.1 he
      have h1 := (List.mem_filter.1 h1).1
      have : (target free (a, b)).2 = b := by cases a <;> rfl
      rw [this]
      exact List.mem_map.2 ⟨_, h1, rfl⟩
    · intro hs
      obtain ⟨⟨a, b⟩, he, rfl⟩ := List.mem_map.1 hs
      cases hsup : superfluous free d (a, b) with
      | false =>
        refine List.mem_map.2 ⟨target free (a, b), List.mem_map.2 ⟨_, List.mem_filter.2 ⟨he, by simp [hsup]⟩, rfl⟩, ?_⟩
        cases a <;> rfl
      | true =>
        cases a with
        | proto q => cases hsup
        | name n =>
          simp only [superfluous, decide_eq_true_eq, Dict.keys, List.mem_map] at hsup
          obtain ⟨⟨a', b'⟩, h1, h2⟩ := hsup
          simp only at h2
          subst h2
          have hb : b' = b := by rw [hw.proto _ _ h1, hf]
          subst hb
          exact List.mem_map.2 ⟨target free (.proto (free b'), b'), List.mem_map.2 ⟨_, List.mem_filter.2 ⟨h1, rfl⟩, rfl⟩, rfl⟩
  · rw [hr]
    clear h hr hform d'
    have : ∀ (c : Sub) (f : Key × ℕ → Bool), (∀ e ∈ c, ∀ p, e.1 = .proto p → f e = true) →
        (c.filter fun e => match e.1 with | .proto _ => true | .name _ => false).Sublist ((c.filter f).map (target free)) := by
      intro c f
      induction c with
      | nil => intro _; exact List.Sublist.refl _
      | cons e c ih =>
        intro hf'
        have ih := ih fun e he => hf' e (by simp [he])
        obtain ⟨a, b⟩ := e
        cases a with
        | proto q =>
          have : f (.proto q, b) = true := hf' _ (by simp) q rfl
          rw [List.filter_cons_of_pos this]
          simp only [List.filter_cons, if_true, List.map_cons, target]
          exact List.Sublist.cons_cons _ ih
        | name n =>
          simp only [List.filter_cons, Bool.false_eq_true, if_false]
          split
          · exact List.Sublist.cons _ ih
          · exact ih
    apply this
    rintro ⟨a, b⟩ _ p hp
    simp only at hp
    subst hp
    rfl
  · refine ⟨?_, ?_, ?_⟩
    · rw [hr]
      have hinj : ∀ a ∈ d.filter (fun e => !superfluous free d e), ∀ b ∈ d.filter (fun e => !superfluous free d e),
          (target free a).1 = (target free b).1 → a = b := by
        rintro ⟨a, s⟩ ha ⟨b, t⟩ hb hab
        obtain ⟨ha, ha'⟩ := List.mem_filter.1 ha
        obtain ⟨hb, hb'⟩ := List.mem_filter.1 hb
        have huniq : ∀ k v w, (k, v) ∈ d → (k, w) ∈ d → v = w := by
          intro k v w h1 h2
          have := Dict.get?_of_mem d hw.nodup k v h1
          rw [Dict.get?_of_mem d hw.nodup k w h2] at this
          exact (Option.some.inj this).symm
        cases a with
        | proto p =>
          cases b with
          | proto q =>
            simp only [target, Key.proto.injEq] at hab
            subst hab
            rw [huniq _ _ _ ha hb]
          | name n =>
            simp only [target, Key.proto.injEq] at hab
            subst hab
            simp only [superfluous, Bool.not_eq_true', decide_eq_false_iff_not] at hb'
            exact absurd (List.mem_map.2 ⟨_, ha, rfl⟩) hb'
        | name m =>
          cases b with
          | proto q =>
            simp only [target, Key.proto.injEq] at hab
            subst hab
            simp only [superfluous, Bool.not_eq_true', decide_eq_false_iff_not] at ha'
            exact absurd (List.mem_map.2 ⟨_, hb, rfl⟩) ha'
          | name n =>
            simp only [target, Key.proto.injEq] at hab
            have hst : s = t := by rw [← hf s, hab, hf]
            rw [← hw.name m s ha, ← hw.name n t hb, hst]
      have hnd : (d.filter fun e => !superfluous free d e).Nodup := (List.Nodup.of_map _ hw.nodup).filter _
      simp only [Dict.keys, List.map_map]
      exact List.Nodup.map_on (fun a ha b hb hab => hinj a ha b hb hab) hnd
    · intro s v hsv
      obtain ⟨p, hp, _⟩ := hform _ hsv
      cases hp
    · intro p v hpv
      obtain ⟨q, hq, hv⟩ := hform _ hpv
      cases hq
      exact hv

/-- **C52 (repetition).** Preparing a prepared simulation changes nothing. -/
theorem C52_idempotent (owner free : ℕ → ℕ) (hf : ∀ s, owner (free s) = s) (d d' : Sub) (hw : WF owner d)
    (h : freeEvol free d = some d') : freeEvol free d' = some d' := by
  obtain ⟨_, _, hform, hw'⟩ := C52_kept owner free hf d d' hw h
  rw [C52_result owner free hf d' hw']
  have h1 : d'.filter (fun e => !superfluous free d' e) = d' := by
    rw [List.filter_eq_self]
    rintro ⟨a, b⟩ he
    obtain ⟨p, hp, _⟩ := hform _ he
    simp only at hp; subst hp; rfl
  rw [h1]
  congr 1
  conv => rhs; rw [← List.map_id d']
  apply List.map_congr_left
  rintro ⟨a, b⟩ he
  obtain ⟨p, hp, _⟩ := hform _ he
  simp only at hp; subst hp; rfl

theorem mem_set (d : Sub) (k : Key) (v : ℕ) (e : Key × ℕ) (h : e ∈ Dict.set d k v) : e ∈ d ∨ e = (k, v) := by
  induction d with
  | nil => simp [Dict.set] at h; exact Or.inr h
  | cons p d ih =>
    obtain ⟨a, b⟩ := p
    simp only [Dict.set] at h
    split at h
    · rename_i ha
      subst ha
      rcases List.mem_cons.1 h with h | h
      · exact Or.inr h
      · exact Or.inl (List.mem_cons_of_mem _ h)
    · rcases List.mem_cons.1 h with h | h
      · exact Or.inl (by simp [h])
      · rcases ih h with h | h
        · exact Or.inl (List.mem_cons_of_mem _ h)
        · exact Or.inr h

/-- The empty dictionary, adding systems without a protocol, adding protocols of their own systems, and preparing: all keep what the
other theorems assume. -/
theorem C52_reachable (owner free : ℕ → ℕ) (hf : ∀ s, owner (free s) = s) :
    WF owner [] ∧ (∀ d s, WF owner d → WF owner (addQSystems d s none)) ∧
    (∀ d d' p s, WF owner d → addProtocol owner d p s = some d' → WF owner d') ∧
    (∀ d k, WF owner d → WF owner (Dict.del d k)) ∧
    (∀ d d', WF owner d → freeEvol free d = some d' → WF owner d') := by
  refine ⟨⟨by simp [Dict.keys], by simp, by simp⟩, ?_, ?_, ?_, fun d d' hw h => (C52_kept owner free hf d d' hw h).2.2.2⟩
  · intro d s hw
    simp only [addQSystems]
    split
    · exact hw
    · refine ⟨Dict.nodup_keys_set _ _ _ hw.nodup, ?_, ?_⟩
      · intro a v h
        rcases mem_set _ _ _ _ h with h | h
        · exact hw.name _ _ h
        · simp only [Prod.mk.injEq, Key.name.injEq] at h; rw [h.1, h.2]
      · intro a v h
        rcases mem_set _ _ _ _ h with h | h
        · exact hw.proto _ _ h
        · simp at h
  · intro d d' p s hw h
    simp only [addProtocol] at h
    split at h
    · rename_i ho
      simp only [addQSystems, Option.some.injEq] at h
      subst h
      refine ⟨Dict.nodup_keys_set _ _ _ hw.nodup, ?_, ?_⟩
      · intro a v h
        rcases mem_set _ _ _ _ h with h | h
        · exact hw.name _ _ h
        · simp at h
      · intro a v h
        rcases mem_set _ _ _ _ h with h | h
        · exact hw.proto _ _ h
        · simp only [Prod.mk.injEq, Key.proto.injEq] at h; rw [h.1, h.2, ho]
    · cases h
  · intro d k hw
    have hsub : ∀ (c : Sub), (Dict.del c k).Sublist c := by
      intro c
      induction c with
      | nil => exact List.Sublist.refl _
      | cons p c ih =>
        simp only [Dict.del]
        split
        · exact List.sublist_cons_self _ _
        · exact List.Sublist.cons_cons _ ih
    refine ⟨?_, fun a v h => hw.name a v ((hsub d).mem h), fun a v h => hw.proto a v ((hsub d).mem h)⟩
    exact List.Nodup.sublist ((hsub d).map _) hw.nodup

/-- Three systems, the second with its own protocol 7: placeholders are replaced in place. -/
example : freeEvol (· + 100) [(.name 0, 0), (.proto 7, 1), (.name 2, 2)] =
    some [(.proto 100, 0), (.proto 7, 1), (.proto 102, 2)] := by decide

/-- The free evolution of system 0 was added explicitly as well: the placeholder goes away, the protocol stays where it was. -/
example : freeEvol (· + 100) [(.name 0, 0), (.proto 7, 1), (.proto 100, 0)] = some [(.proto 7, 1), (.proto 100, 0)] := by decide

/-- False for the code without ownership of protocols: `addQSystems(t, Protocol=s._freeEvol)` is accepted, and preparing then loses the
system `t`. -/
theorem C52_lost : freeEvol (· + 100) (addQSystems (addQSystems [] 0 none) 1 (some 100)) = some [(.proto 100, 0)] := by decide

/-- The order of the systems as listed by `qSystems` can change if a placeholder is superfluous. -/
theorem C52_reordered : freeEvol (· + 100) [(.name 0, 0), (.proto 7, 1), (.proto 100, 0)] = some [(.proto 7, 1), (.proto 100, 0)] := by
  decide

end Verif.Sim.FreeEvol
