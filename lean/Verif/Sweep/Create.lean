import Verif.Sweep.Model

/-!
# C86: which attributes a sweep changes

`Sweep.createSweep` (`QSweep.py:268-310`) and `updateBase._runUpdate` (`baseClasses.py:90-102`).  Simplifications: objects are numbers, given as
objects (not by name); reading an attribute has no effects; attributes that exist can be assigned (a property without a setter would raise);
the sweep function is the default one.
-/
namespace Verif.Sweep

variable {V : Type}

/-- The attributes of all objects and the auxiliary dictionary all objects share (`base.py:592-607`). -/
structure Heap (V : Type) where
  /-- `getattr`, `none` if there is no such attribute -/
  attr : Nat → String → Option V
  aux : String → Option V
  /-- the auxiliary object -/
  auxObj : Nat

/-- A `_sweep`: its systems (keys of a dictionary), its key (`none`: not a string) and `_aux`. -/
structure Target where
  systems : List Nat
  key : Option String
  aux : Bool
deriving DecidableEq, Repr

/-- What is raised. -/
inductive CErr
  | value | attribute | index
deriving DecidableEq, Repr

/-- The objects in the dictionary after adding them one by one (`base.py:658-667`). -/
def asKeys (l : List Nat) : List Nat := l.foldl (fun l s => if s ∈ l then l else l ++ [s]) []

/-- `createSweep(system, sweepKey)` (`QSweep.py:286-310`): the sweeps and the new one.  `owner` is `self.superSys.superSys`; a system that is not a
list is a list with one element.  Nothing is added to the sweeps if an error is raised. -/
def createSweep (h : Heap V) (owner : Option Nat) (sweeps : List Target) (system : Option (List Nat)) (key : Option String) :
    Except CErr (List Target × Target) :=
  match (match system with | some l => some l | none => owner.map fun o => [o]) with
  | none => .error .value
  | some l =>
    if l = [h.auxObj] then .ok (sweeps ++ [⟨asKeys l, key, false⟩], ⟨asKeys l, key, false⟩)
    else match key, asKeys l with
      | none, _ => .error .value
      | some _, [] => .error .index
      | some k, s :: r =>
        if (h.attr s k).isSome then
          if ∀ s' ∈ r, (h.attr s' k).isSome then .ok (sweeps ++ [⟨s :: r, some k, false⟩], ⟨s :: r, some k, false⟩) else .error .attribute
        else .ok (sweeps ++ [⟨s :: r, some k, true⟩], ⟨s :: r, some k, true⟩)

/-- `setattr`. -/
def Heap.set (h : Heap V) (s : Nat) (k : String) (v : V) : Heap V :=
  { h with attr := fun s' k' => if s' = s ∧ k' = k then some v else h.attr s' k' }

/-- `_runUpdate(val)` (`baseClasses.py:90-102`); a key that is no string raises. -/
def runUpdate (t : Target) (v : V) (h : Heap V) : Option (Heap V) :=
  match t.key with
  | none => none
  | some k => some (if t.aux then { h with aux := fun k' => if k' = k then some v else h.aux k' } else t.systems.foldl (fun h s => h.set s k v) h)

/-- All sweeps of a point, each with its value (`QSweep.py:325-337`). -/
def runUpdates : List (Target × V) → Heap V → Option (Heap V)
  | [], h => some h
  | (t, v) :: r, h => match runUpdate t v h with
    | none => none
    | some h => runUpdates r h

/-! ### Lemmas -/

theorem mem_asKeys (l : List Nat) (s : Nat) : s ∈ asKeys l ↔ s ∈ l := by
  have : ∀ (l acc : List Nat), s ∈ l.foldl (fun l s => if s ∈ l then l else l ++ [s]) acc ↔ s ∈ acc ∨ s ∈ l := by
    intro l
    induction l with
    | nil => simp
    | cons a l ih =>
      intro acc
      rw [List.foldl_cons, ih]
      split <;> rename_i h <;> simp only [List.mem_cons, List.mem_append, List.not_mem_nil, or_false]
      · constructor
        · rintro (k | k)
          · exact .inl k
          · exact .inr (.inr k)
        · rintro (k | rfl | k)
          · exact .inl k
          · exact .inl h
          · exact .inr k
      · exact or_assoc
  simpa [asKeys] using this l []

theorem asKeys_head (a : Nat) (l : List Nat) : ∃ r, asKeys (a :: l) = a :: r := by
  have : ∀ (l acc : List Nat) (a : Nat), ∃ r, l.foldl (fun l s => if s ∈ l then l else l ++ [s]) (a :: acc) = a :: r := by
    intro l
    induction l with
    | nil => exact fun acc a => ⟨acc, rfl⟩
    | cons b l ih =>
      intro acc a
      rw [List.foldl_cons]
      split
      · exact ih acc a
      · exact ih (acc ++ [b]) a
  simpa [asKeys] using this l [] a

theorem foldl_set (l : List Nat) (k : String) (v : V) (h : Heap V) :
    (∀ s' k', (l.foldl (fun h s => h.set s k v) h).attr s' k' = if s' ∈ l ∧ k' = k then some v else h.attr s' k') ∧
    (l.foldl (fun h s => h.set s k v) h).aux = h.aux ∧ (l.foldl (fun h s => h.set s k v) h).auxObj = h.auxObj := by
  induction l generalizing h with
  | nil => simp
  | cons a l ih =>
    obtain ⟨h1, h2, h3⟩ := ih (h.set a k v)
    refine ⟨?_, h2, h3⟩
    intro s' k'
    rw [List.foldl_cons, h1]
    simp only [Heap.set, List.mem_cons]
    by_cases c1 : s' ∈ l <;> by_cases c2 : k' = k <;> by_cases c3 : s' = a <;> simp [c1, c2, c3]

/-! ### Statements -/

/-- If every given object has the attribute, the sweep is created, and it assigns the value to this attribute of every given object and changes
nothing else. -/
theorem C86_assigns_partial (h : Heap V) (owner : Option Nat) (sweeps : List Target) (l : List Nat) (k : String) (hl : l ≠ [])
    (hk : ∀ s ∈ l, (h.attr s k).isSome) :
    ∃ t, createSweep h owner sweeps (some l) (some k) = .ok (sweeps ++ [t], t) ∧ ∀ (g : Heap V) (v : V), ∃ g', runUpdate t v g = some g' ∧
      g'.aux = g.aux ∧ ∀ s k', g'.attr s k' = if s ∈ l ∧ k' = k then some v else g.attr s k' := by
  obtain ⟨a, r, rfl⟩ := List.exists_cons_of_ne_nil hl
  obtain ⟨r', hr⟩ := asKeys_head a r
  have eff : ∀ (g : Heap V) (v : V), ∃ g', runUpdate ⟨asKeys (a :: r), some k, false⟩ v g = some g' ∧
      g'.aux = g.aux ∧ ∀ s k', g'.attr s k' = if s ∈ a :: r ∧ k' = k then some v else g.attr s k' := by
    intro g v
    obtain ⟨h1, h2, -⟩ := foldl_set (asKeys (a :: r)) k v g
    refine ⟨_, rfl, h2, ?_⟩
    intro s k'
    have h1 := h1 s k'
    simp only [mem_asKeys] at h1
    exact h1
  refine ⟨⟨asKeys (a :: r), some k, false⟩, ?_, eff⟩
  unfold createSweep
  dsimp only
  split
  · rfl
  · rw [hr]
    dsimp only
    rw [if_pos (hk a List.mem_cons_self), if_pos]
    intro s hs
    exact hk s ((mem_asKeys _ s).mp (by rw [hr]; exact List.mem_cons_of_mem _ hs))

/-- Without a system the owner of the simulation is taken; a simulation without owner raises. -/
theorem C86_owner (h : Heap V) (owner : Option Nat) (sweeps : List Target) (key : Option String) :
    createSweep h owner sweeps none key = match owner with
      | none => .error .value
      | some o => createSweep h owner sweeps (some [o]) key := by
  cases owner <;> rfl

/-- If the first object does not have the attribute, e.g. because of a typing error, nothing is raised, and no attribute of any object is
ever changed by the sweep. -/
theorem C86_silent (h : Heap V) (owner : Option Nat) (sweeps : List Target) (a : Nat) (r : List Nat) (k : String) (ha : h.attr a k = none)
    (hx : a :: r ≠ [h.auxObj]) :
    ∃ t, createSweep h owner sweeps (some (a :: r)) (some k) = .ok (sweeps ++ [t], t) ∧ ∀ (g : Heap V) (v : V), ∃ g', runUpdate t v g = some g' ∧
      g'.attr = g.attr ∧ ∀ k', g'.aux k' = if k' = k then some v else g.aux k' := by
  obtain ⟨r', hr⟩ := asKeys_head a r
  refine ⟨⟨asKeys (a :: r), some k, true⟩, ?_, ?_⟩
  · unfold createSweep
    dsimp only
    rw [if_neg hx, hr]
    dsimp only
    rw [if_neg (by rw [ha]; simp)]
  · intro g v
    exact ⟨_, rfl, rfl, fun _ => rfl⟩

/-- When creating a sweep of given objects raises: exactly if there is no object, the key is no string, or the first object has the attribute and
another one does not. -/
theorem C86_raises_iff (h : Heap V) (owner : Option Nat) (sweeps : List Target) (l : List Nat) (key : Option String) (hx : l ≠ [h.auxObj]) :
    (∃ e, createSweep h owner sweeps (some l) key = .error e) ↔
      key = none ∨ l = [] ∨ ∃ k a r, key = some k ∧ l = a :: r ∧ (h.attr a k).isSome ∧ ∃ s ∈ r, h.attr s k = none := by
  unfold createSweep
  dsimp only
  rw [if_neg hx]
  cases key with
  | none => simp
  | some k =>
    cases l with
    | nil => simp [asKeys]
    | cons a r =>
      obtain ⟨r', hr⟩ := asKeys_head a r
      have hm : ∀ s, s = a ∨ s ∈ r' ↔ s = a ∨ s ∈ r := by
        intro s
        have := mem_asKeys (a :: r) s
        rw [hr] at this
        simpa using this
      rw [hr]
      dsimp only
      by_cases ha : (h.attr a k).isSome
      · rw [if_pos ha]
        by_cases hall : ∀ s' ∈ r', (h.attr s' k).isSome
        · rw [if_pos hall]
          constructor
          · rintro ⟨e, he⟩; cases he
          · rintro (c | c | ⟨k', a', r'', e1, e2, -, s, hs, hn⟩)
            · cases c
            · cases c
            · cases e1; cases e2
              have : (h.attr s k).isSome := by
                rcases (hm s).mpr (.inr hs) with rfl | c
                · exact ha
                · exact hall s c
              rw [hn] at this; cases this
        · rw [if_neg hall]
          refine ⟨fun _ => .inr (.inr ⟨k, a, r, rfl, rfl, ha, ?_⟩), fun _ => ⟨_, rfl⟩⟩
          have hall : ∃ s, s ∈ r' ∧ ¬ (h.attr s k).isSome := by
            apply Classical.byContradiction
            intro c
            exact hall fun s hs => Classical.byContradiction fun c' => c ⟨s, hs, c'⟩
          obtain ⟨s, hs, hn⟩ := hall
          rcases (hm s).mp (.inr hs) with rfl | c
          · exact absurd ha hn
          · exact ⟨s, c, by simpa using hn⟩
      · rw [if_neg ha]
        constructor
        · rintro ⟨e, he⟩; cases he
        · rintro (c | c | ⟨k', a', r'', e1, e2, c, -⟩)
          · cases c
          · cases c
          · cases e1; cases e2; exact absurd c ha

/-- The order of the objects decides: with the one without the attribute in the last place an error is raised, in the first place nothing is
raised and the other object, which has the attribute, is not swept. -/
theorem C86_order : ∃ (h : Heap Nat) (k : String), h.attr 1 k = some 5 ∧ h.attr 2 k = none ∧
    createSweep h none [] (some [1, 2]) (some k) = .error .attribute ∧
    ∃ t, createSweep h none [] (some [2, 1]) (some k) = .ok ([t], t) ∧ ∀ v, (runUpdate t v h).map (fun g => g.attr 1 k) = some (some 5) := by
  refine ⟨⟨fun s k => if s = 1 ∧ k = "frequency" then some 5 else none, fun _ => none, 0⟩, "frequency", rfl, rfl, rfl, _, rfl, ?_⟩
  intro v; rfl

/-- After all sweeps of a point every attribute has the value of the last sweep that names it, and the others are as before. -/
theorem C86_last_wins (l : List (Target × V)) (h g : Heap V) (hr : runUpdates l h = some g) (s : Nat) (k : String) :
    g.attr s k = match l.reverse.find? (fun p => decide (p.1.key = some k ∧ p.1.aux = false ∧ s ∈ p.1.systems)) with
      | some p => some p.2
      | none => h.attr s k := by
  induction l generalizing h with
  | nil => cases hr; rfl
  | cons p l ih =>
    obtain ⟨t, v⟩ := p
    simp only [runUpdates] at hr
    cases hu : runUpdate t v h with
    | none => rw [hu] at hr; cases hr
    | some h1 =>
      rw [hu] at hr
      rw [ih h1 hr, List.reverse_cons, List.find?_append]
      cases hf : l.reverse.find? (fun p => decide (p.1.key = some k ∧ p.1.aux = false ∧ s ∈ p.1.systems)) with
      | some q => rfl
      | none =>
        simp only [Option.none_or]
        unfold runUpdate at hu
        cases hk : t.key with
        | none => rw [hk] at hu; cases hu
        | some k' =>
          rw [hk] at hu
          simp only [Option.some.injEq] at hu
          subst hu
          cases hx : t.aux with
          | true => simp [hx]
          | false =>
            have := (foldl_set t.systems k' v h).1 s k
            simp only [Bool.false_eq_true, if_false]
            rw [this]
            by_cases c : s ∈ t.systems ∧ k = k'
            · obtain ⟨c1, rfl⟩ := c
              simp [hk, hx, c1]
            · rw [if_neg c]
              have : ¬ (k' = k ∧ s ∈ t.systems) := fun d => c ⟨d.2, d.1.symm⟩
              simp [hk, hx]
              rw [if_neg this]

/-- Two qubits with a frequency: both are swept. -/
example : ∃ t, createSweep (⟨fun s k => if s ≤ 2 ∧ k = "frequency" then some 5 else none, fun _ => none, 9⟩ : Heap Nat) (some 1) []
      (some [1, 2]) (some "frequency") = .ok ([t], t) ∧
    (runUpdate t 7 ⟨fun s k => if s ≤ 2 ∧ k = "frequency" then some 5 else none, fun _ => none, 9⟩).map
      (fun g => [g.attr 1 "frequency", g.attr 2 "frequency", g.attr 0 "frequency"]) = some [some 7, some 7, some 5] :=
  ⟨_, rfl, by decide +kernel⟩

/-- `createSweep(system=qubit, sweepKey='freqency')` raises nothing and sweeps nothing. -/
example : ∃ t, createSweep (⟨fun s k => if s ≤ 2 ∧ k = "frequency" then some 5 else none, fun _ => none, 9⟩ : Heap Nat) (some 1) []
      none (some "freqency") = .ok ([t], t) ∧ t.aux = true := ⟨_, rfl, rfl⟩

/-- The second of two sweeps of the same attribute wins. -/
example : (runUpdates [(⟨[1], some "frequency", false⟩, 3), (⟨[1, 2], some "frequency", false⟩, 4)]
    (⟨fun _ _ => some 5, fun _ => none, 9⟩ : Heap Nat)).map (fun g => g.attr 1 "frequency") = some (some 4) := by decide +kernel

end Verif.Sweep
