import Verif.Sim.FreeEvol
import Mathlib.Data.List.TakeWhile

/-!
# C36: removing systems, protocols and sweeps

Model of `Sweep.removeSweep` (`classes/QSweep.py:244-266`) and of `Simulation.removeQSystems`, `removeSweep`, `removeProtocol`
(`classes/QSim.py:230-262`), with `qBase._removeSubSysExc` (`classes/base.py:677-684`).  Simplifications: objects are identities (the
dictionaries are keyed by their unique names); a `_sweep` is its name and the objects it sweeps; the arguments are objects, names and
aliases are C22; the loop over the sweeps and the deletion by name of the ones that became empty are done in one pass, which is the same
because names are unique.  Exceptions are the flag in the result, next to the state they leave behind.
-/
namespace Verif.Sim.Remove

open FreeEvol (Key Sub)

/-- Objects that can be swept. -/
inductive Obj where
  | sys (n : ℕ)
  | proto (n : ℕ)
  | sim (n : ℕ)
  deriving DecidableEq

/-- The sweeps of a `Sweep` object: name and swept objects. -/
abbrev Sweeps := List (ℕ × List Obj)

/-- `Sweep.removeSweep(sys)` for an object that is not a sweep (`QSweep.py:260-266`).  The flag: a `KeyError` was raised. -/
def removeObj (o : Obj) : Sweeps → Sweeps × Bool
  | [] => ([], false)
  | (n, l) :: r =>
    if o ∈ l then
      let (r', e) := removeObj o r
      (if l.erase o = [] then r' else (n, l.erase o) :: r', e)
    else ((n, l) :: r, true)

/-- `Sweep.removeSweep(sweep)` for a sweep (`QSweep.py:258-259`). -/
def removeSweepObj (d : Sweeps) (n : ℕ) : Sweeps × Bool :=
  if n ∈ d.map Prod.fst then (d.filter fun e => e.1 ≠ n, false) else (d, true)

/-- What belongs to a simulation. -/
structure SimSt where
  subSys : Sub
  sweep : Sweeps
  timeDep : Sweeps
  deriving DecidableEq

/-- All simulations. -/
abbrev Heap := ℕ → SimSt

/-- Storing the state of a simulation. -/
def upd (h : Heap) (a : ℕ) (st : SimSt) : Heap := fun b => if b = a then st else h b

/-- `self.Sweep.removeSweep(system); self.timeDependency.removeSweep(system)` (`QSim.py:246-247`). -/
def removeLocal (st : SimSt) (o : Obj) : SimSt × Bool :=
  let (s, e) := removeObj o st.sweep
  if e then ({ st with sweep := s }, true)
  else
    let (t, e') := removeObj o st.timeDep
    ({ st with sweep := s, timeDep := t }, e')

/-- `Simulation.removeSweep(o)` of the simulation `a` (`QSim.py:241-249`); the recursive call is the one of a simulation on itself. -/
def removeSweep (h : Heap) (a : ℕ) (o : Obj) : Heap × Bool :=
  let (st, e) := removeLocal (h a) o
  let h1 := upd h a st
  if e then (h1, true)
  else match o with
    | .sim b =>
      if b = a then (h1, false)
      else
        let (st', e') := removeLocal (h1 b) o
        (upd h1 b st', e')
    | _ => (h1, false)

/-- `removeSweep` for a list (`@_recurseIfList`). -/
def removeAll (a : ℕ) : List Obj → Heap → Heap × Bool
  | [], h => (h, false)
  | o :: os, h =>
    let (h', e) := removeSweep h a o
    if e then (h', true) else removeAll a os h'

/-- What a system refers to: its simulation, its free evolution, and the simulation of a protocol. -/
structure Env where
  simOf : ℕ → ℕ
  free : ℕ → ℕ
  simOfProto : ℕ → ℕ

/-- The objects whose sweeps go when a system is removed (`QSim.py:239`). -/
def removed (env : Env) (s : ℕ) : List Obj :=
  [.sys s, .sim (env.simOf s), .proto (env.free s), .sim (env.simOfProto (env.free s))]

/-- `Simulation.removeQSystems(s)` of the simulation `a` (`QSim.py:230-239`). -/
def removeQSystems (env : Env) (h : Heap) (a s : ℕ) : Heap × Bool :=
  match Dict.get? (h a).subSys (.name s) with
  | none => (h, true)
  | some _ => removeAll a (removed env s) (upd h a { h a with subSys := Dict.del (h a).subSys (.name s) })

/-- `Simulation.removeProtocol(key)` of the simulation `a` (`QSim.py:251-262`); the name of a system has no attribute `simulation`. -/
def removeProtocol (env : Env) (h : Heap) (a : ℕ) (k : Key) : Heap × Bool :=
  match Dict.get? (h a).subSys k with
  | none => (h, false)
  | some s =>
    let d' := Dict.del (h a).subSys k
    let h1 := upd h a { h a with subSys := d' }
    match k with
    | .name _ => (h1, true)
    | .proto p =>
      let (h2, e) := removeAll a [.proto p, .sim (env.simOfProto p)] h1
      if e then (h2, true)
      else if s ∈ d'.map Prod.snd then (h2, false) else removeSweep h2 a (.sys s)

/-! ### Specification -/

/-- What removing objects from sweeps should do: each sweep loses these objects, and goes when nothing is left. -/
def intended (os : List Obj) (d : Sweeps) : Sweeps :=
  (d.map fun e => (e.1, e.2.filter fun x => decide (x ∉ os))).filter fun e => decide (e.2 ≠ [])

/-- What belongs to a system: itself, its simulation, its free evolution and the simulation of that. -/
def belongings (env : Env) (s : ℕ) : List Obj :=
  [.sys s, .sim (env.simOf s), .proto (env.free s), .sim (env.simOfProto (env.free s))]

theorem removed_eq (env : Env) (s : ℕ) : removed env s = belongings env s := rfl

/-- Sweeps as they are created: no object twice, at least one object. -/
def Good (d : Sweeps) : Prop := ∀ e ∈ d, e.2.Nodup ∧ e.2 ≠ []

theorem good_tail {e : ℕ × List Obj} {d : Sweeps} (h : Good (e :: d)) : Good d := fun x hx => h x (by simp [hx])

theorem intended_cons (os : List Obj) (n : ℕ) (l : List Obj) (d : Sweeps) : intended os ((n, l) :: d) =
    if (l.filter fun x => decide (x ∉ os)) = [] then intended os d else (n, l.filter fun x => decide (x ∉ os)) :: intended os d := by
  simp only [intended, List.map_cons, List.filter_cons]
  by_cases h : (l.filter fun x => decide (x ∉ os)) = []
  · rw [if_pos h, if_neg (by simpa using h)]
  · rw [if_neg h, if_pos (by simpa using h)]

theorem intended_nil_objs (d : Sweeps) (hg : Good d) : intended [] d = d := by
  induction d with
  | nil => rfl
  | cons e d ih =>
    obtain ⟨n, l⟩ := e
    have : (l.filter fun x => decide (x ∉ ([] : List Obj))) = l := by simp
    rw [intended_cons, this, if_neg (hg (n, l) (by simp)).2, ih (good_tail hg)]

theorem good_intended (os : List Obj) (d : Sweeps) (hg : Good d) : Good (intended os d) := by
  intro e he
  simp only [intended, List.mem_filter, List.mem_map, decide_eq_true_eq] at he
  obtain ⟨⟨x, hx, rfl⟩, h2⟩ := he
  exact ⟨(hg x hx).1.filter _, h2⟩

theorem intended_comp (o : Obj) (os : List Obj) (d : Sweeps) : intended os (intended [o] d) = intended (o :: os) d := by
  induction d with
  | nil => rfl
  | cons e d ih =>
    obtain ⟨n, l⟩ := e
    have hf : (l.filter fun x => decide (x ∉ [o])).filter (fun x => decide (x ∉ os)) = l.filter fun x => decide (x ∉ o :: os) := by
      rw [List.filter_filter]
      apply List.filter_congr
      intro x _
      simp only [List.mem_cons, List.not_mem_nil, or_false, not_or]
      by_cases h1 : x = o <;> by_cases h2 : x ∈ os <;> simp [h1, h2]
    rw [intended_cons [o], intended_cons (o :: os), ← hf]
    split
    · rename_i h
      rw [h, ih]; simp
    · rw [intended_cons os, ih]

theorem erase_eq (l : List Obj) (hl : l.Nodup) (o : Obj) : l.erase o = l.filter fun x => decide (x ∉ [o]) := by
  rw [hl.erase_eq_filter]
  apply List.filter_congr
  intro x _
  by_cases h : x = o <;> simp [h]

/-! ### C36 for one object in one `Sweep` -/

/-- **C36 (one object), exact behaviour.** The sweeps before the first one that does not contain the object are treated as intended; that
one and all later ones stay as they are, and a `KeyError` is raised exactly if there is one that does not contain it. -/
theorem C36_object_exact (o : Obj) (d : Sweeps) (hg : Good d) :
    removeObj o d = (intended [o] (d.takeWhile fun e => decide (o ∈ e.2)) ++ d.dropWhile fun e => decide (o ∈ e.2),
      d.any fun e => decide (o ∉ e.2)) := by
  induction d with
  | nil => rfl
  | cons e d ih =>
    obtain ⟨n, l⟩ := e
    simp only [removeObj]
    by_cases h : o ∈ l
    · rw [ih (good_tail hg)]
      simp only [h, if_true, List.takeWhile_cons, List.dropWhile_cons, decide_true, List.any_cons, not_true, decide_false,
        Bool.false_or]
      rw [intended_cons, erase_eq l (hg (n, l) (by simp)).1]
      split <;> simp
    · simp [h, List.takeWhile_cons, List.dropWhile_cons, intended]

/-- **C36 (one object), partial.** If every sweep contains the object, removing it does what is intended.  Missing: the case in which some
sweep does not contain it (`C36_object_exact`, `C36_other_sweep_raises`). -/
theorem C36_object_partial (o : Obj) (d : Sweeps) (hg : Good d) (hall : ∀ e ∈ d, o ∈ e.2) : removeObj o d = (intended [o] d, false) := by
  rw [C36_object_exact o d hg]
  have h1 : d.takeWhile (fun e => decide (o ∈ e.2)) = d := List.takeWhile_eq_self_iff.2 (by simpa using hall)
  have h2 : d.dropWhile (fun e => decide (o ∈ e.2)) = [] := List.dropWhile_eq_nil_iff.2 (by simpa using hall)
  rw [h1, h2]
  have h3 : (d.any fun e => decide (o ∉ e.2)) = false := by
    rw [List.any_eq_false]
    intro e he
    simp [hall e he]
  rw [h3]
  simp

theorem removeObj_ok (o : Obj) (d : Sweeps) (hg : Good d) (h : (removeObj o d).2 = false) :
    (∀ e ∈ d, o ∈ e.2) ∧ (removeObj o d).1 = intended [o] d := by
  have hall : ∀ e ∈ d, o ∈ e.2 := by
    rw [C36_object_exact o d hg, List.any_eq_false] at h
    intro e he
    simpa using h e he
  exact ⟨hall, by rw [C36_object_partial o d hg hall]⟩

/-- The statement as it should be is false: with sweeps over two systems, removing the second one raises and removes nothing. -/
theorem C36_other_sweep_raises : removeObj (.sys 1) [(0, [.sys 0]), (1, [.sys 1])] = ([(0, [.sys 0]), (1, [.sys 1])], true) ∧
    intended [.sys 1] [(0, [.sys 0]), (1, [.sys 1])] = [(0, [.sys 0])] := by decide

/-- **C36 (a sweep).** Removing a sweep removes exactly that one, and raises exactly if it is not there. -/
theorem C36_sweep (d : Sweeps) (n : ℕ) :
    ((removeSweepObj d n).2 = true ↔ n ∉ d.map Prod.fst) ∧ (∀ e, e ∈ (removeSweepObj d n).1 ↔ e ∈ d ∧ e.1 ≠ n) ∧
    (removeSweepObj d n).1.Sublist d := by
  simp only [removeSweepObj]
  split
  · rename_i h
    refine ⟨by simpa using h, fun e => by simp [List.mem_filter], List.filter_sublist⟩
  · rename_i h
    refine ⟨by simpa using h, ?_, List.Sublist.refl _⟩
    intro e
    constructor
    · intro he
      refine ⟨he, ?_⟩
      rintro rfl
      exact h (List.mem_map.2 ⟨e, he, rfl⟩)
    · exact fun he => he.1

/-! ### C36 for simulations -/

/-- Both `Sweep` objects of a simulation are as created. -/
def GoodSt (st : SimSt) : Prop := Good st.sweep ∧ Good st.timeDep

/-- The intended effect on the two `Sweep` objects of a simulation. -/
def intendedSt (os : List Obj) (st : SimSt) : SimSt :=
  { st with sweep := intended os st.sweep, timeDep := intended os st.timeDep }

/-- Every sweep of the simulation contains the object. -/
def AllContain (o : Obj) (st : SimSt) : Prop := (∀ e ∈ st.sweep, o ∈ e.2) ∧ ∀ e ∈ st.timeDep, o ∈ e.2

theorem removeLocal_false_iff (st : SimSt) (o : Obj) (hg : GoodSt st) : (removeLocal st o).2 = false ↔ AllContain o st := by
  simp only [removeLocal]
  constructor
  · intro h
    split at h
    · cases h
    · rename_i h1
      exact ⟨(removeObj_ok o _ hg.1 (by simpa using h1)).1, (removeObj_ok o _ hg.2 h).1⟩
  · rintro ⟨h1, h2⟩
    rw [C36_object_partial o _ hg.1 h1, C36_object_partial o _ hg.2 h2]
    rfl

theorem removeLocal_ok (st : SimSt) (o : Obj) (hg : GoodSt st) (h : AllContain o st) :
    removeLocal st o = (intendedSt [o] st, false) := by
  simp only [removeLocal, C36_object_partial o _ hg.1 h.1, C36_object_partial o _ hg.2 h.2]
  rfl

/-- The intended effect on all simulations: on `a` itself, and on each removed simulation, which is removed from its own sweeps. -/
def intendedHeap (a : ℕ) (os : List Obj) (h : Heap) : Heap := fun b =>
  if b = a then intendedSt os (h b) else if .sim b ∈ os then intendedSt [.sim b] (h b) else h b

theorem removeSweep_ok (h : Heap) (a : ℕ) (o : Obj) (hg : ∀ b, GoodSt (h b)) (hok : (removeSweep h a o).2 = false) :
    AllContain o (h a) ∧ (∀ b, o = .sim b → AllContain o (h b)) ∧ (removeSweep h a o).1 = intendedHeap a [o] h := by
  simp only [removeSweep] at hok ⊢
  have h1 : (removeLocal (h a) o).2 = false := by
    by_contra hc
    have hc : (removeLocal (h a) o).2 = true := by simpa using hc
    rw [hc] at hok
    simp at hok
  have hall := (removeLocal_false_iff _ _ (hg a)).1 h1
  have heq := removeLocal_ok _ _ (hg a) hall
  rw [heq] at hok ⊢
  refine ⟨hall, ?_, ?_⟩
  · rintro b rfl
    by_cases hb : b = a
    · rw [hb] at hall ⊢; exact hall
    · simp only [Bool.false_eq_true, if_false, hb] at hok
      have hu : upd h a (intendedSt [.sim b] (h a)) b = h b := by simp [upd, hb]
      rw [hu] at hok
      exact (removeLocal_false_iff _ _ (hg b)).1 hok
  · cases o with
    | sys n => funext b; by_cases hb : b = a <;> simp [upd, intendedHeap, hb]
    | proto n => funext b; by_cases hb : b = a <;> simp [upd, intendedHeap, hb]
    | sim n =>
      by_cases hn : n = a
      · subst hn
        simp only [Bool.false_eq_true, if_false, if_true]
        funext b
        by_cases hb : b = n
        · simp [upd, intendedHeap, hb]
        · simp [upd, intendedHeap, hb]
      · simp only [Bool.false_eq_true, if_false, hn] at hok ⊢
        have hu : upd h a (intendedSt [.sim n] (h a)) n = h n := by simp [upd, hn]
        rw [hu] at hok ⊢
        rw [removeLocal_ok _ _ (hg n) ((removeLocal_false_iff _ _ (hg n)).1 hok)]
        funext b
        by_cases hb : b = n
        · subst hb; simp [upd, intendedHeap, hn]
        · by_cases hb' : b = a
          · subst hb'; simp [upd, intendedHeap, hb]
          · simp [upd, intendedHeap, hb, hb']

theorem goodSt_intended (os : List Obj) (st : SimSt) (h : GoodSt st) : GoodSt (intendedSt os st) :=
  ⟨good_intended os _ h.1, good_intended os _ h.2⟩

theorem good_intendedHeap (a : ℕ) (os : List Obj) (h : Heap) (hg : ∀ b, GoodSt (h b)) (b : ℕ) : GoodSt (intendedHeap a os h b) := by
  simp only [intendedHeap]
  split
  · exact goodSt_intended _ _ (hg b)
  · split
    · exact goodSt_intended _ _ (hg b)
    · exact hg b

theorem intendedHeap_nil (a : ℕ) (h : Heap) (hg : ∀ b, GoodSt (h b)) : intendedHeap a [] h = h := by
  funext b
  simp only [intendedHeap, List.not_mem_nil, if_false]
  split
  · simp only [intendedSt, intended_nil_objs _ (hg b).1, intended_nil_objs _ (hg b).2]
  · rfl

theorem intendedSt_comp (o : Obj) (os : List Obj) (st : SimSt) : intendedSt os (intendedSt [o] st) = intendedSt (o :: os) st := by
  simp only [intendedSt, intended_comp]

theorem intended_twice (o : Obj) (d : Sweeps) : intended [o] (intended [o] d) = intended [o] d := by
  rw [intended_comp]
  simp only [intended, List.mem_cons, List.not_mem_nil, or_false, or_self]

theorem intendedHeap_comp (a : ℕ) (o : Obj) (os : List Obj) (h : Heap) :
    intendedHeap a os (intendedHeap a [o] h) = intendedHeap a (o :: os) h := by
  funext b
  simp only [intendedHeap]
  by_cases hb : b = a
  · simp only [hb, if_true]; exact intendedSt_comp _ _ _
  · simp only [hb, if_false, List.mem_cons, List.not_mem_nil, or_false]
    by_cases h1 : Obj.sim b = o
    · subst h1
      by_cases h2 : Obj.sim b ∈ os
      · simp only [h2, if_true, or_true, intendedSt, intended_twice]
      · simp only [h2, if_false, if_true, or_false]
    · by_cases h2 : Obj.sim b ∈ os <;> simp [h1, h2]

theorem removeAll_ok (a : ℕ) : ∀ (os : List Obj) (h : Heap), (∀ b, GoodSt (h b)) → (removeAll a os h).2 = false →
    (removeAll a os h).1 = intendedHeap a os h
  | [], h, hg, _ => (intendedHeap_nil a h hg).symm
  | o :: os, h, hg, hok => by
    simp only [removeAll] at hok ⊢
    have h1 : (removeSweep h a o).2 = false := by
      by_contra hc
      have hc : (removeSweep h a o).2 = true := by simpa using hc
      rw [hc] at hok
      simp at hok
    obtain ⟨_, _, heq⟩ := removeSweep_ok h a o hg h1
    simp only [h1, Bool.false_eq_true, if_false] at hok ⊢
    rw [heq] at hok ⊢
    rw [removeAll_ok a os _ (good_intendedHeap a [o] h hg) hok, intendedHeap_comp]

/-- **C36 (systems), partial.** Whenever removing a system does not raise, exactly its entry is gone from the simulation, all sweeps lose
exactly the system, its free evolution and their simulations, sweeps that swept nothing else are gone, and no other simulation is
touched except that the removed simulations are taken out of their own sweeps.  Missing: when it raises, see `C36_system_raises_iff`. -/
theorem C36_system_partial (env : Env) (h : Heap) (a s : ℕ) (hg : ∀ b, GoodSt (h b)) (hok : (removeQSystems env h a s).2 = false) :
    (removeQSystems env h a s).1 a = { subSys := Dict.del (h a).subSys (.name s)
                                       sweep := intended (belongings env s) (h a).sweep
                                       timeDep := intended (belongings env s) (h a).timeDep } ∧
    ∀ b, b ≠ a → (removeQSystems env h a s).1 b = if Obj.sim b ∈ belongings env s then intendedSt [.sim b] (h b) else h b := by
  rw [← removed_eq]
  simp only [removeQSystems] at hok ⊢
  split at hok
  · cases hok
  · rename_i v hv
    have hg' : ∀ b, GoodSt (upd h a { h a with subSys := Dict.del (h a).subSys (.name s) } b) := by
      intro b
      simp only [upd]
      split
      · exact hg a
      · exact hg b
    rw [removeAll_ok a _ _ hg' hok]
    refine ⟨by simp [intendedHeap, upd, intendedSt], fun b hb => by simp [intendedHeap, upd, hb]⟩

/-- One sweep survives a list of removals without `KeyError`: each object is in it, until it is empty. -/
def Fits : List Obj → List Obj → Prop
  | [], _ => True
  | o :: os, l => o ∈ l ∧ (l.erase o = [] ∨ Fits os (l.erase o))

/-- In other words: the sweep contains all the objects, or it consists of the first few of them. -/
theorem fits_iff (os l : List Obj) (ho : os.Nodup) (hl : l.Nodup) (hne : l ≠ []) :
    Fits os l ↔ (∀ o ∈ os, o ∈ l) ∨ ∃ k, ∀ x, x ∈ l ↔ x ∈ os.take k := by
  induction os generalizing l with
  | nil => simp [Fits]
  | cons o os ih =>
    rw [List.nodup_cons] at ho
    have hmem : ∀ x, x ∈ l.erase o ↔ x ≠ o ∧ x ∈ l := fun x => hl.mem_erase_iff
    simp only [Fits]
    constructor
    · rintro ⟨h1, h2 | h2⟩
      · right
        refine ⟨1, fun x => ?_⟩
        simp only [List.take_succ_cons, List.take_zero, List.mem_singleton]
        constructor
        · intro hx
          by_contra hc
          have := (hmem x).2 ⟨hc, hx⟩
          rw [h2] at this; cases this
        · rintro rfl; exact h1
      · by_cases he : l.erase o = []
        · right
          refine ⟨1, fun x => ?_⟩
          simp only [List.take_succ_cons, List.take_zero, List.mem_singleton]
          constructor
          · intro hx
            by_contra hc
            have := (hmem x).2 ⟨hc, hx⟩
            rw [he] at this; cases this
          · rintro rfl; exact h1
        · rcases (ih (l.erase o) ho.2 (hl.erase o) he).1 h2 with h3 | ⟨k, hk⟩
          · left
            intro x hx
            rcases List.mem_cons.1 hx with rfl | hx
            · exact h1
            · exact ((hmem x).1 (h3 x hx)).2
          · right
            refine ⟨k + 1, fun x => ?_⟩
            simp only [List.take_succ_cons, List.mem_cons]
            rw [← hk x, hmem]
            constructor
            · intro hx
              by_cases hxo : x = o
              · exact Or.inl hxo
              · exact Or.inr ⟨hxo, hx⟩
            · rintro (rfl | h)
              · exact h1
              · exact h.2
    · rintro (h | ⟨k, hk⟩)
      · refine ⟨h o (by simp), ?_⟩
        by_cases he : l.erase o = []
        · exact Or.inl he
        · right
          refine (ih (l.erase o) ho.2 (hl.erase o) he).2 (Or.inl fun x hx => (hmem x).2 ⟨?_, h x (by simp [hx])⟩)
          rintro rfl; exact ho.1 hx
      · cases k with
        | zero =>
          simp only [List.take_zero, List.not_mem_nil, iff_false] at hk
          exact absurd (List.eq_nil_iff_forall_not_mem.2 hk) hne
        | succ k =>
          simp only [List.take_succ_cons, List.mem_cons] at hk
          refine ⟨(hk o).2 (Or.inl rfl), ?_⟩
          by_cases he : l.erase o = []
          · exact Or.inl he
          · right
            refine (ih (l.erase o) ho.2 (hl.erase o) he).2 (Or.inr ⟨k, fun x => ?_⟩)
            rw [hmem, hk]
            constructor
            · rintro ⟨h1, rfl | h2⟩
              · exact absurd rfl h1
              · exact h2
            · intro h
              refine ⟨?_, Or.inr h⟩
              rintro rfl; exact ho.1 (List.mem_of_mem_take h)

theorem mem_intended (o : Obj) (d : Sweeps) (e : ℕ × List Obj) (hg : Good d) :
    e ∈ intended [o] d ↔ e.2 ≠ [] ∧ ∃ l, (e.1, l) ∈ d ∧ e.2 = l.erase o := by
  simp only [intended, List.mem_filter, List.mem_map, decide_eq_true_eq]
  constructor
  · rintro ⟨⟨x, hx, rfl⟩, h⟩
    exact ⟨h, x.2, hx, (erase_eq _ (hg x hx).1 o).symm⟩
  · rintro ⟨h, l, hl, h2⟩
    refine ⟨⟨(e.1, l), hl, ?_⟩, h⟩
    obtain ⟨a, b⟩ := e
    simp only at h2 ⊢
    rw [h2, erase_eq _ (hg _ hl).1 o]

/-- The removals raise nothing exactly if all sweeps of the simulation fit and the removed other simulations are contained in all of
their own sweeps. -/
theorem removeAll_ok_iff (a : ℕ) : ∀ (os : List Obj) (h : Heap), (∀ b, GoodSt (h b)) → os.Nodup →
    ((removeAll a os h).2 = false ↔
      (∀ e ∈ (h a).sweep, Fits os e.2) ∧ (∀ e ∈ (h a).timeDep, Fits os e.2) ∧
      ∀ b, b ≠ a → Obj.sim b ∈ os → AllContain (.sim b) (h b))
  | [], h, _, _ => by simp [removeAll, Fits]
  | o :: os, h, hg, hn => by
    rw [List.nodup_cons] at hn
    have hlocal : ∀ d : Sweeps, Good d → (∀ e ∈ d, o ∈ e.2) →
        ((∀ e ∈ intended [o] d, Fits os e.2) ↔ ∀ e ∈ d, Fits (o :: os) e.2) := by
      intro d hd hall
      constructor
      · intro hf e he
        refine ⟨hall e he, ?_⟩
        by_cases hne : e.2.erase o = []
        · exact Or.inl hne
        · exact Or.inr (hf (e.1, e.2.erase o) ((mem_intended o d _ hd).2 ⟨hne, e.2, he, rfl⟩))
      · intro hf e he
        obtain ⟨h1, l, h2, h3⟩ := (mem_intended o d _ hd).1 he
        rcases (hf _ h2).2 with h4 | h4
        · exact absurd (h3.trans h4) h1
        · rw [h3]; exact h4
    simp only [removeAll]
    constructor
    · intro hok
      have h1 : (removeSweep h a o).2 = false := by
        by_contra hc
        have hc : (removeSweep h a o).2 = true := by simpa using hc
        rw [hc] at hok
        simp at hok
      obtain ⟨hc1, hc2, heq⟩ := removeSweep_ok h a o hg h1
      simp only [h1, Bool.false_eq_true, if_false] at hok
      rw [heq] at hok
      obtain ⟨i1, i2, i3⟩ := (removeAll_ok_iff a os _ (good_intendedHeap a [o] h hg) hn.2).1 hok
      simp only [intendedHeap, if_true, intendedSt] at i1 i2
      refine ⟨(hlocal _ (hg a).1 hc1.1).1 i1, (hlocal _ (hg a).2 hc1.2).1 i2, ?_⟩
      intro b hb hmem
      rcases List.mem_cons.1 hmem with hbo | hmem'
      · have := hc2 b hbo.symm
        rw [← hbo] at this; exact this
      · have := i3 b hb hmem'
        have hne : ¬ Obj.sim b = o := by rintro rfl; exact hn.1 hmem'
        simpa [intendedHeap, hb, hne] using this
    · rintro ⟨i1, i2, i3⟩
      have hc1 : AllContain o (h a) := ⟨fun e he => (i1 e he).1, fun e he => (i2 e he).1⟩
      have h1 : (removeSweep h a o).2 = false := by
        simp only [removeSweep, removeLocal_ok _ _ (hg a) hc1, Bool.false_eq_true, if_false]
        cases o with
        | sys n => rfl
        | proto n => rfl
        | sim n =>
          by_cases hna : n = a
          · simp [hna]
          · simp only [hna, if_false]
            have hu : upd h a (intendedSt [.sim n] (h a)) n = h n := by simp [upd, hna]
            rw [hu]
            exact (removeLocal_false_iff _ _ (hg n)).2 (i3 n hna (by simp))
      obtain ⟨_, _, heq⟩ := removeSweep_ok h a o hg h1
      simp only [h1, Bool.false_eq_true, if_false]
      rw [heq]
      refine (removeAll_ok_iff a os _ (good_intendedHeap a [o] h hg) hn.2).2 ⟨?_, ?_, ?_⟩
      · simp only [intendedHeap, if_true, intendedSt]
        exact (hlocal _ (hg a).1 hc1.1).2 i1
      · simp only [intendedHeap, if_true, intendedSt]
        exact (hlocal _ (hg a).2 hc1.2).2 i2
      · intro b hb hmem
        have hne : ¬ Obj.sim b = o := by rintro rfl; exact hn.1 hmem
        have := i3 b hb (by simp [hmem])
        simpa [intendedHeap, hb, hne] using this

/-- **C36 (when it raises).** `removeQSystems` succeeds exactly if the system is stored under its name (not under a protocol), every sweep
of the simulation contains all four removed objects or consists of the first few of them, and the two other simulations are contained in
all of their own sweeps.  In particular one sweep over anything else is enough to make it raise. -/
theorem C36_system_raises_iff (env : Env) (h : Heap) (a s : ℕ) (hg : ∀ b, GoodSt (h b))
    (hd : env.simOf s ≠ env.simOfProto (env.free s)) :
    (removeQSystems env h a s).2 = false ↔
      Key.name s ∈ Dict.keys (h a).subSys ∧
      (∀ e, e ∈ (h a).sweep ∨ e ∈ (h a).timeDep →
        (∀ o ∈ belongings env s, o ∈ e.2) ∨ ∃ k, ∀ x, x ∈ e.2 ↔ x ∈ (belongings env s).take k) ∧
      ∀ b, b ≠ a → Obj.sim b ∈ belongings env s → AllContain (.sim b) (h b) := by
  rw [← removed_eq]
  have hnd : (removed env s).Nodup := by simp [removed, hd]
  have hg' : ∀ b, GoodSt (upd h a { h a with subSys := Dict.del (h a).subSys (.name s) } b) := by
    intro b
    simp only [upd]
    split
    · exact hg a
    · exact hg b
  have hfits : ∀ e, e ∈ (h a).sweep ∨ e ∈ (h a).timeDep → (Fits (removed env s) e.2 ↔
      ((∀ o ∈ removed env s, o ∈ e.2) ∨ ∃ k, ∀ x, x ∈ e.2 ↔ x ∈ (removed env s).take k)) := by
    rintro e (he | he)
    · exact fits_iff _ _ hnd ((hg a).1 e he).1 ((hg a).1 e he).2
    · exact fits_iff _ _ hnd ((hg a).2 e he).1 ((hg a).2 e he).2
  have hupd : ∀ b, b ≠ a → upd h a { h a with subSys := Dict.del (h a).subSys (.name s) } b = h b := by
    intro b hb; simp [upd, hb]
  simp only [removeQSystems]
  rw [Dict.mem_keys_iff]
  cases hv : Dict.get? (h a).subSys (.name s) with
  | none => simp
  | some v =>
    simp only [Option.some.injEq, exists_eq', true_and]
    rw [removeAll_ok_iff a _ _ hg' hnd]
    simp only [upd, if_true]
    constructor
    · rintro ⟨h1, h2, h3⟩
      refine ⟨?_, ?_⟩
      · rintro e (he | he)
        · exact (hfits e (Or.inl he)).1 (h1 e he)
        · exact (hfits e (Or.inr he)).1 (h2 e he)
      · intro b hb hm
        have := h3 b hb hm
        simpa [hb] using this
    · rintro ⟨h1, h2⟩
      refine ⟨fun e he => (hfits e (Or.inl he)).2 (h1 e (Or.inl he)), fun e he => (hfits e (Or.inr he)).2 (h1 e (Or.inr he)), ?_⟩
      intro b hb hm
      have := h2 b hb hm
      simpa [hb] using this

/-- False for the code: after a run (which prepares the simulation, C52) no system can be removed any more, `KeyError`. -/
theorem C36_after_run (env : Env) (owner : ℕ → ℕ) (hf : ∀ s, owner (env.free s) = s) (h : Heap) (a s : ℕ) (d : Sub)
    (hw : FreeEvol.WF owner d) (hrun : FreeEvol.freeEvol env.free d = some (h a).subSys) :
    removeQSystems env h a s = (h, true) := by
  obtain ⟨_, _, hform, _⟩ := FreeEvol.C52_kept owner env.free hf d _ hw hrun
  have : Dict.get? (h a).subSys (.name s) = none := by
    rw [Dict.get?_eq_none_iff]
    intro hm
    obtain ⟨e, he, h1⟩ := List.mem_map.1 hm
    obtain ⟨p, hp, _⟩ := hform e he
    rw [h1] at hp; cases hp
  simp [removeQSystems, this]

/-- **C36 (protocols), partial.** Removing a protocol that is not there does nothing; when removing one that is there does not raise, its
entry is gone, its sweeps are gone, and the sweeps of its system are gone exactly if no other protocol of the system is left.
Missing: when it raises, see `C36_protocol_raises_iff`. -/
theorem C36_protocol_partial (env : Env) (h : Heap) (a p : ℕ) (hg : ∀ b, GoodSt (h b)) :
    (Dict.get? (h a).subSys (.proto p) = none → removeProtocol env h a (.proto p) = (h, false)) ∧
    ∀ s, Dict.get? (h a).subSys (.proto p) = some s → (removeProtocol env h a (.proto p)).2 = false →
      (removeProtocol env h a (.proto p)).1 a =
        let os := if s ∈ (Dict.del (h a).subSys (.proto p)).map Prod.snd then [Obj.proto p, .sim (env.simOfProto p)]
          else [Obj.proto p, .sim (env.simOfProto p), .sys s]
        { subSys := Dict.del (h a).subSys (.proto p), sweep := intended os (h a).sweep, timeDep := intended os (h a).timeDep } := by
  constructor
  · intro hn; simp [removeProtocol, hn]
  · intro s hs hok
    simp only [removeProtocol, hs] at hok ⊢
    have hg' : ∀ b, GoodSt (upd h a { h a with subSys := Dict.del (h a).subSys (.proto p) } b) := by
      intro b
      simp only [upd]
      split
      · exact hg a
      · exact hg b
    have h1 : (removeAll a [.proto p, .sim (env.simOfProto p)]
        (upd h a { h a with subSys := Dict.del (h a).subSys (.proto p) })).2 = false := by
      by_contra hc
      have hc : (removeAll a [.proto p, .sim (env.simOfProto p)]
        (upd h a { h a with subSys := Dict.del (h a).subSys (.proto p) })).2 = true := by simpa using hc
      rw [hc] at hok
      simp at hok
    have heq := removeAll_ok a _ _ hg' h1
    simp only [h1, Bool.false_eq_true, if_false] at hok ⊢
    rw [heq] at hok ⊢
    by_cases hm : s ∈ (Dict.del (h a).subSys (.proto p)).map Prod.snd
    · simp [hm, intendedHeap, upd, intendedSt]
    · simp only [hm, if_false] at hok ⊢
      obtain ⟨_, _, heq2⟩ := removeSweep_ok _ a (.sys s) (good_intendedHeap a _ _ hg') hok
      rw [heq2]
      have hcomp : ∀ d, intended [Obj.sys s] (intended [Obj.proto p, .sim (env.simOfProto p)] d) =
          intended [Obj.proto p, .sim (env.simOfProto p), .sys s] d := by
        intro d
        rw [← intended_comp (Obj.proto p) [.sim (env.simOfProto p)], ← intended_comp (Obj.proto p) [.sim (env.simOfProto p), .sys s],
          ← intended_comp (.sim (env.simOfProto p)) [.sys s]]
      simp [intendedHeap, upd, intendedSt, hcomp]

/-- What goes with a protocol: its sweeps, those of its simulation, and those of its system if it was the last protocol of the system. -/
def goesWith (env : Env) (h : Heap) (a p s : ℕ) : List Obj :=
  if s ∈ (Dict.del (h a).subSys (.proto p)).map Prod.snd then [.proto p, .sim (env.simOfProto p)]
  else [.proto p, .sim (env.simOfProto p), .sys s]

theorem removeProtocol_eq (env : Env) (h : Heap) (a p s : ℕ) (hs : Dict.get? (h a).subSys (.proto p) = some s) :
    removeProtocol env h a (.proto p) =
      removeAll a (goesWith env h a p s) (upd h a { h a with subSys := Dict.del (h a).subSys (.proto p) }) := by
  have hone : ∀ (o : Obj) (h : Heap), removeAll a [o] h = removeSweep h a o := by
    intro o h
    simp only [removeAll]
    rcases e : removeSweep h a o with ⟨h', _ | _⟩ <;> rfl
  have happ : ∀ (l : List Obj) (o : Obj) (h : Heap), removeAll a (l ++ [o]) h =
      if (removeAll a l h).2 = true then ((removeAll a l h).1, true) else removeSweep (removeAll a l h).1 a o := by
    intro l
    induction l with
    | nil => intro o h; rw [List.nil_append, hone]; rfl
    | cons x l ih =>
      intro o h
      simp only [List.cons_append, removeAll]
      by_cases e : (removeSweep h a x).2 = true
      · simp [e]
      · simp only [e]
        exact ih o _
  simp only [removeProtocol, hs, goesWith]
  by_cases hm : s ∈ (Dict.del (h a).subSys (.proto p)).map Prod.snd
  · simp only [hm, if_true]
    rcases e : removeAll a [.proto p, .sim (env.simOfProto p)] (upd h a { h a with subSys := Dict.del (h a).subSys (.proto p) }) with ⟨h', _ | _⟩ <;> rfl
  · simp only [hm, if_false]
    have := happ [.proto p, .sim (env.simOfProto p)] (.sys s) (upd h a { h a with subSys := Dict.del (h a).subSys (.proto p) })
    simp only [List.cons_append, List.nil_append] at this
    rw [this]

/-- **C36 (protocols, when it raises).** Removing a protocol that is there succeeds exactly if every sweep of the simulation contains all the
objects that go with it or consists of the first few of them, and the simulation of the protocol, if another one, is contained in all of its
own sweeps. -/
theorem C36_protocol_raises_iff (env : Env) (h : Heap) (a p s : ℕ) (hg : ∀ b, GoodSt (h b))
    (hs : Dict.get? (h a).subSys (.proto p) = some s) :
    (removeProtocol env h a (.proto p)).2 = false ↔
      (∀ e, e ∈ (h a).sweep ∨ e ∈ (h a).timeDep →
        (∀ o ∈ goesWith env h a p s, o ∈ e.2) ∨ ∃ k, ∀ x, x ∈ e.2 ↔ x ∈ (goesWith env h a p s).take k) ∧
      ∀ b, b ≠ a → b = env.simOfProto p → AllContain (.sim b) (h b) := by
  have hnd : (goesWith env h a p s).Nodup := by unfold goesWith; split <;> simp
  have hsim : ∀ b, Obj.sim b ∈ goesWith env h a p s ↔ b = env.simOfProto p := by intro b; unfold goesWith; split <;> simp
  have hg' : ∀ b, GoodSt (upd h a { h a with subSys := Dict.del (h a).subSys (.proto p) } b) := by
    intro b
    simp only [upd]
    split
    · exact hg a
    · exact hg b
  have hfits : ∀ e, e ∈ (h a).sweep ∨ e ∈ (h a).timeDep → (Fits (goesWith env h a p s) e.2 ↔
      ((∀ o ∈ goesWith env h a p s, o ∈ e.2) ∨ ∃ k, ∀ x, x ∈ e.2 ↔ x ∈ (goesWith env h a p s).take k)) := by
    rintro e (he | he)
    · exact fits_iff _ _ hnd ((hg a).1 e he).1 ((hg a).1 e he).2
    · exact fits_iff _ _ hnd ((hg a).2 e he).1 ((hg a).2 e he).2
  rw [removeProtocol_eq env h a p s hs, removeAll_ok_iff a _ _ hg' hnd]
  simp only [upd, if_true, hsim]
  constructor
  · rintro ⟨h1, h2, h3⟩
    refine ⟨?_, fun b hb hm => by simpa [hb] using h3 b hb hm⟩
    rintro e (he | he)
    · exact (hfits e (Or.inl he)).1 (h1 e he)
    · exact (hfits e (Or.inr he)).1 (h2 e he)
  · rintro ⟨h1, h2⟩
    exact ⟨fun e he => (hfits e (Or.inl he)).2 (h1 e (Or.inl he)), fun e he => (hfits e (Or.inr he)).2 (h1 e (Or.inr he)),
      fun b hb hm => by simpa [hb] using h2 b hb hm⟩

/-- Removing the second protocol of a system works without sweeps; with a sweep of the system alone it raises. -/
example : let env : Env := ⟨(· + 10), (· + 100), (· + 20)⟩
    let h : Sweeps → Heap := fun d b => if b = 0 then ⟨[(.proto 7, 5), (.proto 8, 5)], d, []⟩ else ⟨[], [], []⟩
    (removeProtocol env (h []) 0 (.proto 8)).2 = false ∧ (removeProtocol env (h []) 0 (.proto 8)).1 0 = ⟨[(.proto 7, 5)], [], []⟩ ∧
      (removeProtocol env (h [(0, [.sys 5])]) 0 (.proto 8)).2 = true := by decide

/-- False for the code: `removeProtocol(system.name)`, which the documentation of `_freeEvol` proposes, takes the entry out and then
raises. -/
theorem C36_protocol_by_name (env : Env) (h : Heap) (a n s : ℕ) (hs : Dict.get? (h a).subSys (.name n) = some s) :
    (removeProtocol env h a (.name n)).2 = true ∧ (removeProtocol env h a (.name n)).1 a =
      { h a with subSys := Dict.del (h a).subSys (.name n) } := by
  simp [removeProtocol, hs, upd]

/-- Simulation 0 with the systems 5 and 6 and one sweep of 5 only: removing system 5 works. -/
example : let env : Env := ⟨(· + 10), (· + 100), (· + 20)⟩
    let h : Heap := fun b => if b = 0 then ⟨[(.name 5, 5), (.name 6, 6)], [(0, [.sys 5])], []⟩ else ⟨[], [], []⟩
    (removeQSystems env h 0 5).2 = false ∧ (removeQSystems env h 0 5).1 0 = ⟨[(.name 6, 6)], [], []⟩ := by decide

/-- The same with a further sweep of system 6: `KeyError`, system 5 is gone, the sweep of 6 is still there, and so would be a later sweep
of 5. -/
example : let env : Env := ⟨(· + 10), (· + 100), (· + 20)⟩
    let h : Heap := fun b => if b = 0 then ⟨[(.name 5, 5), (.name 6, 6)], [(0, [.sys 6]), (1, [.sys 5])], []⟩ else ⟨[], [], []⟩
    (removeQSystems env h 0 5).2 = true ∧
      (removeQSystems env h 0 5).1 0 = ⟨[(.name 6, 6)], [(0, [.sys 6]), (1, [.sys 5])], []⟩ := by decide

end Verif.Sim.Remove
