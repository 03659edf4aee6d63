import Verif.Names.Lookup

/-!
# C97: names of objects that do not exist any more

The registry `named._allInstacesDict` (`classes/base.py:331-335`) holds weak references.  The model adds to `Names/Model.lean` which objects the
user still refers to and what the registry holds for each.  Simplifications: an object is collected as soon as nothing refers to it; the
collection of attributes through which objects hold each other is not modelled (`drop` says that the last of all references, apart from
the registry, is gone).  Objects with results are held by `qResults._allResults` and are never dropped.
-/
namespace Verif.Names

/-- The value of a registry entry: `weakref.ref(obj)`, the object itself, or `None` (`base.py:345-348, 377`). -/
inductive Entry
  | weak | strong | gone
deriving DecidableEq, Repr

/-- The registry with its references, and which objects are referred to otherwise. -/
structure GWorld where
  w : World
  entry : Nat → Entry
  held : Nat → Bool

/-- The object exists. -/
def GWorld.alive (g : GWorld) (o : Nat) : Bool := g.held o || g.entry o == .strong

/-- What `getByNameOrAlias` does. -/
inductive Found
  | obj (o : Nat) | nothing | error
deriving DecidableEq, Repr

/-- `getByNameOrAlias` (`base.py:388-398`): `ValueError` if there is no entry or the entry is `None`; a weak reference to a collected object
gives `None`. -/
def lookupG (g : GWorld) (k : Key) : Found :=
  match getByNameOrAlias g.w k with
  | none => .error
  | some o => match g.entry o with
    | .gone => .error
    | .strong => .obj o
    | .weak => if g.held o then .obj o else .nothing

/-- Statements: create an object, give an alias, lose the last reference, pickle any object (`__getstate__`), get an object by name and
keep it. -/
inductive GOp
  | create (c : Nat) (internal : Bool)
  | giveAlias (o : Nat) (s : String)
  | drop (o : Nat)
  | pickle
  | take (k : Key)

/-- `__getstate__` (`base.py:345-348`): weak references are replaced by what they refer to, in the registry of this process. -/
def pickleEntry (g : GWorld) (o : Nat) : Entry :=
  match g.entry o with
  | .weak => if g.held o then .strong else .gone
  | e => e

/-- Execute a statement. -/
def stepG (T : List Cls) (g : GWorld) : GOp → GWorld
  | .create c i => { w := create T g.w c i, entry := Function.update g.entry g.w.objs.length .weak,
                     held := Function.update g.held g.w.objs.length true }
  | .giveAlias o s => if o < g.w.objs.length ∧ g.alive o then { g with w := (setAlias g.w o s).getD g.w } else g
  | .drop o => { g with held := Function.update g.held o false }
  | .pickle => { g with entry := pickleEntry g }
  | .take k => match lookupG g k with
    | .obj o => { g with held := Function.update g.held o true }
    | _ => g

/-- Execute a program. -/
def runG (T : List Cls) (ops : List GOp) : GWorld :=
  ops.foldl (fun (g : GWorld) (op : GOp) => stepG T g op) ⟨emptyWorld T, fun _ => .weak, fun _ => false⟩

/-- The statement only creates objects of classes of the table. -/
def GOp.valid (T : List Cls) : GOp → Prop
  | .create c _ => c < T.length
  | _ => True

variable {T : List Cls}

theorem runG_append (ops more : List GOp) : runG T (ops ++ more) = more.foldl (fun (g : GWorld) (op : GOp) => stepG T g op) (runG T ops) := by
  simp [runG, List.foldl_append]

/-- The names are those of a program of `Names/Model.lean`. -/
theorem runG_w (ops : List GOp) (hv : ∀ op ∈ ops, op.valid T) : ∃ ops' : List Op, (∀ op ∈ ops', op.valid T) ∧ (runG T ops).w = runW T ops' := by
  induction ops using List.reverseRecOn with
  | nil => exact ⟨[], by simp, rfl⟩
  | append_singleton ops op ih =>
    obtain ⟨l, hl, e⟩ := ih fun x hx => hv x (by simp [hx])
    have hop := hv op (by simp)
    rw [runG_append]
    show ∃ ops' : List Op, (∀ op ∈ ops', op.valid T) ∧ (stepG T (runG T ops) op).w = runW T ops'
    cases op with
    | create c i =>
      refine ⟨l ++ [Op.create c i], ?_, ?_⟩
      · intro x hx
        rcases List.mem_append.1 hx with hx | hx
        · exact hl x hx
        · rw [List.mem_singleton.1 hx]; exact hop
      · rw [runW_snoc, ← e]; rfl
    | giveAlias o s =>
      by_cases h : o < (runG T ops).w.objs.length ∧ (runG T ops).alive o
      · refine ⟨l ++ [Op.giveAlias o s], ?_, ?_⟩
        · intro x hx
          rcases List.mem_append.1 hx with hx | hx
          · exact hl x hx
          · rw [List.mem_singleton.1 hx]; trivial
        · rw [runW_snoc, ← e]
          simp only [stepG, if_pos h, stepW, if_pos h.1]
      · exact ⟨l, hl, by rw [← e]; simp only [stepG, if_neg h]⟩
    | drop o => exact ⟨l, hl, e⟩
    | pickle => exact ⟨l, hl, e⟩
    | take k =>
      refine ⟨l, hl, ?_⟩
      rw [← e]
      unfold stepG
      dsimp only
      split <;> rfl

theorem stepG_grows (g : GWorld) (op : GOp) : Grows g.w (stepG T g op).w := by
  cases op with
  | create c i => exact step_grows (T := T) g.w (.create c i)
  | giveAlias o s =>
    by_cases h : o < g.w.objs.length ∧ g.alive o
    · have := step_grows (T := T) g.w (.giveAlias o s)
      simp only [stepW, if_pos h.1] at this
      simp only [stepG, if_pos h]
      exact this
    · simp only [stepG, if_neg h]
      exact grows_refl _
  | drop o => exact grows_refl _
  | pickle => exact grows_refl _
  | take k =>
    unfold stepG
    dsimp only
    split <;> exact grows_refl _

theorem lookupG_obj {g : GWorld} {k : Key} {o : Nat} (h : lookupG g k = .obj o) : g.alive o = true := by
  unfold lookupG at h
  split at h
  · cases h
  · rename_i x _
    split at h
    · cases h
    · injection h with h
      subst h
      simp [GWorld.alive, *]
    · rename_i he
      by_cases hh : g.held x = true
      · rw [if_pos hh] at h
        injection h with h
        subst h
        simp [GWorld.alive, hh]
      · rw [if_neg hh] at h
        cases h

/-- An entry is `None` only for objects that do not exist. -/
theorem gone_not_held (ops : List GOp) : ∀ o, (runG T ops).entry o = .gone → (runG T ops).held o = false := by
  induction ops using List.reverseRecOn with
  | nil => intro o h; cases h
  | append_singleton ops op ih =>
    intro o h
    rw [runG_append] at h ⊢
    have h : (stepG T (runG T ops) op).entry o = .gone := h
    show (stepG T (runG T ops) op).held o = false
    cases op with
    | create c i =>
      by_cases hx : o = (runG T ops).w.objs.length
      · simp [stepG, hx] at h
      · simp only [stepG, Function.update_of_ne hx] at h ⊢
        exact ih o h
    | giveAlias x s =>
      by_cases hx : x < (runG T ops).w.objs.length ∧ (runG T ops).alive x
      · simp only [stepG, if_pos hx] at h ⊢; exact ih o h
      · simp only [stepG, if_neg hx] at h ⊢; exact ih o h
    | drop x =>
      by_cases hx : o = x
      · simp [stepG, hx]
      · simp only [stepG, Function.update_of_ne hx] at h ⊢
        exact ih o h
    | pickle =>
      simp only [stepG, pickleEntry] at h ⊢
      cases h1 : (runG T ops).entry o with
      | weak =>
        rw [h1] at h
        by_cases h2 : (runG T ops).held o = true
        · simp [h2] at h
        · simpa using h2
      | strong => rw [h1] at h; cases h
      | gone => exact ih o h1
    | take k =>
      cases hk : lookupG (runG T ops) k with
      | obj x =>
        simp only [stepG, hk] at h ⊢
        by_cases hx : o = x
        · subst hx
          have ha := lookupG_obj hk
          have := ih o h
          simp [GWorld.alive, this, h] at ha
        · rw [Function.update_of_ne hx]
          exact ih o h
      | nothing => simp only [stepG, hk] at h ⊢; exact ih o h
      | error => simp only [stepG, hk] at h ⊢; exact ih o h

/-- **C97** (partial: as long as no alias equals the default name of another object, as in C22).  An object that exists is found by its
name and by each of its aliases. -/
theorem C97_found_partial (hT : GoodTable T) (ops : List GOp) (hv : ∀ op ∈ ops, op.valid T) (hc : NoClash (runG T ops).w) (o : Nat)
    (a : AliasObj) (ho : (runG T ops).w.objs[o]? = some a) (hg : (runG T ops).alive o = true) :
    lookupG (runG T ops) (.ali o) = .obj o ∧ ∀ s, some s ∈ a.members → lookupG (runG T ops) (.str s) = .obj o := by
  obtain ⟨l, hl, e⟩ := runG_w ops hv
  rw [e] at hc ho
  obtain ⟨_, h2, h3⟩ := C22_lookup_partial hT l hl hc
  have key : ∀ k, getByNameOrAlias (runW T l) k = some o → lookupG (runG T ops) k = .obj o := by
    intro k hk
    unfold lookupG
    rw [e, hk]
    unfold GWorld.alive at hg
    cases he : (runG T ops).entry o with
    | strong => simp [he]
    | weak =>
      rw [he] at hg
      have : (runG T ops).held o = true := by simpa using hg
      simp [he, this]
    | gone =>
      exfalso
      rw [he] at hg
      have hh : (runG T ops).held o = true := by simpa using hg
      rw [gone_not_held ops o he] at hh
      cases hh
  exact ⟨key _ (h3 o (List.getElem?_eq_some_iff.mp ho).1), fun s hs => key _ ((h2 s o).2 ⟨a, ho, hs⟩)⟩

/-- An object that does not exist any more never exists again. -/
theorem C97_stays_dead (ops more : List GOp) (o : Nat) (ho : o < (runG T ops).w.objs.length) (h : (runG T ops).alive o = false) :
    (runG T (ops ++ more)).alive o = false := by
  suffices hs : o < (runG T (ops ++ more)).w.objs.length ∧ (runG T (ops ++ more)).alive o = false from hs.2
  induction more using List.reverseRecOn with
  | nil => simpa using ⟨ho, h⟩
  | append_singleton more op ih =>
    rw [← List.append_assoc, runG_append]
    generalize runG T (ops ++ more) = g at ih
    show o < (stepG T g op).w.objs.length ∧ (stepG T g op).alive o = false
    obtain ⟨i1, i2⟩ := ih
    constructor
    · have h1 : g.w.objs[o]? = some g.w.objs[o] := by rw [List.getElem?_eq_getElem]
      obtain ⟨a', h2, _⟩ := stepG_grows (T := T) g op o _ h1
      exact (List.getElem?_eq_some_iff.mp h2).1
    · have j : g.held o = false ∧ g.entry o ≠ .strong := by
        unfold GWorld.alive at i2
        simpa using i2
      have : (stepG T g op).held o = false ∧ (stepG T g op).entry o ≠ .strong := by
        cases op with
        | create c i =>
          have hx : o ≠ g.w.objs.length := Nat.ne_of_lt i1
          simp only [stepG, Function.update_of_ne hx]
          exact j
        | giveAlias x s =>
          by_cases hx : x < g.w.objs.length ∧ g.alive x
          · simp only [stepG, if_pos hx]; exact j
          · simp only [stepG, if_neg hx]; exact j
        | drop x =>
          by_cases hx : o = x
          · simp only [stepG, hx, Function.update_self, true_and]
            rw [← hx]; exact j.2
          · simp only [stepG, Function.update_of_ne hx]; exact j
        | pickle =>
          refine ⟨j.1, ?_⟩
          simp only [stepG, pickleEntry]
          cases he : g.entry o with
          | weak => simp [j.1]
          | strong => exact absurd he j.2
          | gone => simp
        | take k =>
          cases hk : lookupG g k with
          | obj x =>
            have hx : o ≠ x := by
              intro e
              subst e
              rw [lookupG_obj hk] at i2
              cases i2
            simp only [stepG, hk, Function.update_of_ne hx]; exact j
          | nothing => simp only [stepG, hk]; exact j
          | error => simp only [stepG, hk]; exact j
      unfold GWorld.alive
      simp [this.1, this.2]

/-- **C97** fails: the names and aliases of an object that does not exist any more stay reserved, whatever is done: no other object can be
given one of them. -/
theorem C97_reserved (hT : GoodTable T) (ops more : List GOp) (hv : ∀ op ∈ ops ++ more, op.valid T) (hc : NoClash (runG T (ops ++ more)).w)
    (o o' : Nat) (a : AliasObj) (ho : (runG T ops).w.objs[o]? = some a) (s : String) (hs : some s ∈ a.members) (hne : o' ≠ o) :
    stepG T (runG T (ops ++ more)) (.giveAlias o' s) = runG T (ops ++ more) := by
  obtain ⟨l, hl, e⟩ := runG_w (ops ++ more) hv
  have gr : ∀ more : List GOp, Grows (runG T ops).w (runG T (ops ++ more)).w := by
    intro more
    induction more using List.reverseRecOn with
    | nil => rw [List.append_nil]; exact grows_refl _
    | append_singleton more op ih =>
      rw [← List.append_assoc, runG_append]
      intro x b hb
      obtain ⟨b', h1, h2, h3⟩ := ih x b hb
      obtain ⟨b'', h4, h5, h6⟩ := stepG_grows (T := T) (runG T (ops ++ more)) op x b' h1
      exact ⟨b'', h4, h5.trans h2, fun y hy => h6 y (h3 y hy)⟩
  obtain ⟨a', h1, h2, h3⟩ := gr more o a ho
  have hs' : some s ∈ a'.members := by
    unfold AliasObj.members at hs ⊢
    rcases List.mem_cons.1 hs with hs | hs
    · exact List.mem_cons.2 (.inl (hs.trans h2.symm))
    · obtain ⟨y, hy, hy'⟩ := List.mem_map.1 hs
      exact List.mem_cons.2 (.inr (List.mem_map.2 ⟨y, h3 y hy, hy'⟩))
  have := (C22_alias_refused_partial hT l hl (by rw [← e]; exact hc) o' s).2 ⟨o, a', fun x => hne x.symm, by rw [← e]; exact h1, hs'⟩
  unfold stepG
  dsimp only
  rw [e, this]
  by_cases hx : o' < (runW T l).objs.length ∧ (runG T (ops ++ more)).alive o'
  · rw [if_pos hx, Option.getD_none, ← e]
  · rw [if_neg hx]

/-- **C97** fails: looking up the name of an object that does not exist any more gives `None` without an exception, unless an object was
pickled since. -/
theorem C97_lookup_dead (hT : GoodTable T) (ops : List GOp) (hv : ∀ op ∈ ops, op.valid T) (hc : NoClash (runG T ops).w) (o : Nat)
    (a : AliasObj) (ho : (runG T ops).w.objs[o]? = some a) (hg : (runG T ops).alive o = false) (s : String) (hs : some s ∈ a.members) :
    (lookupG (runG T ops) (.str s) = .nothing ∨ lookupG (runG T ops) (.str s) = .error) ∧
    (lookupG (runG T ops) (.str s) = .error ↔ (runG T ops).entry o = .gone) ∧
    lookupG (stepG T (runG T ops) .pickle) (.str s) = .error := by
  obtain ⟨l, hl, e⟩ := runG_w ops hv
  have h1 : getByNameOrAlias (runG T ops).w (.str s) = some o := by
    rw [e] at hc ho ⊢
    exact ((C22_lookup_partial hT l hl hc).2.1 s o).2 ⟨a, ho, hs⟩
  have j : (runG T ops).held o = false ∧ (runG T ops).entry o ≠ .strong := by
    unfold GWorld.alive at hg
    simpa using hg
  cases he : (runG T ops).entry o with
  | strong => exact absurd he j.2
  | weak =>
    have e1 : lookupG (runG T ops) (.str s) = .nothing := by simp [lookupG, h1, he, j.1]
    refine ⟨.inl e1, by rw [e1]; simp, ?_⟩
    simp [lookupG, stepG, pickleEntry, h1, he, j.1]
  | gone =>
    have e1 : lookupG (runG T ops) (.str s) = .error := by simp [lookupG, h1, he]
    refine ⟨.inr e1, by rw [e1]; simp, ?_⟩
    simp [lookupG, stepG, pickleEntry, h1, he]

/-- **C97**: pickling any object keeps all objects of this process that exist then: they are never collected. -/
theorem C97_pickle_keeps (ops more : List GOp) (o : Nat) (ho : o < (runG T ops).w.objs.length) (h : (runG T ops).alive o = true) :
    (runG T (ops ++ GOp.pickle :: more)).alive o = true := by
  suffices hs : o < (runG T (ops ++ GOp.pickle :: more)).w.objs.length ∧ (runG T (ops ++ GOp.pickle :: more)).entry o = .strong by
    simp [GWorld.alive, hs.2]
  induction more using List.reverseRecOn with
  | nil =>
    rw [runG_append]
    refine ⟨ho, ?_⟩
    show pickleEntry (runG T ops) o = .strong
    unfold GWorld.alive at h
    unfold pickleEntry
    cases he : (runG T ops).entry o with
    | strong => rfl
    | weak =>
      rw [he] at h
      have : (runG T ops).held o = true := by simpa using h
      simp [this]
    | gone =>
      rw [he, gone_not_held ops o he] at h
      cases h
  | append_singleton more op ih =>
    rw [show ops ++ GOp.pickle :: (more ++ [op]) = (ops ++ GOp.pickle :: more) ++ [op] by simp, runG_append]
    generalize runG T (ops ++ GOp.pickle :: more) = g at ih
    show o < (stepG T g op).w.objs.length ∧ (stepG T g op).entry o = .strong
    obtain ⟨i1, i2⟩ := ih
    constructor
    · have h1 : g.w.objs[o]? = some g.w.objs[o] := by rw [List.getElem?_eq_getElem]
      obtain ⟨a', h2, _⟩ := stepG_grows (T := T) g op o _ h1
      exact (List.getElem?_eq_some_iff.mp h2).1
    · cases op with
      | create c i =>
        have hx : o ≠ g.w.objs.length := Nat.ne_of_lt i1
        simp only [stepG, Function.update_of_ne hx]
        exact i2
      | giveAlias x s =>
        by_cases hx : x < g.w.objs.length ∧ g.alive x
        · simp only [stepG, if_pos hx]; exact i2
        · simp only [stepG, if_neg hx]; exact i2
      | drop x => exact i2
      | pickle => simp [stepG, pickleEntry, i2]
      | take k =>
        cases hk : lookupG g k with
        | obj x => simp only [stepG, hk]; exact i2
        | nothing => simp only [stepG, hk]; exact i2
        | error => simp only [stepG, hk]; exact i2

/-- **C97**: an object is collected with its last reference if nothing has been pickled. -/
theorem C97_collected (ops : List GOp) (hp : GOp.pickle ∉ ops) (o : Nat) : (runG T (ops ++ [.drop o])).alive o = false := by
  have : ∀ ops : List GOp, GOp.pickle ∉ ops → ∀ o, (runG T ops).entry o = .weak := by
    intro ops
    induction ops using List.reverseRecOn with
    | nil => intro _ o; rfl
    | append_singleton ops op ih =>
      intro hp o
      have ih := ih (fun h => hp (List.mem_append_left _ h))
      rw [runG_append]
      show (stepG T (runG T ops) op).entry o = .weak
      cases op with
      | create c i =>
        by_cases hx : o = (runG T ops).w.objs.length
        · simp [stepG, hx]
        · simp only [stepG, Function.update_of_ne hx]; exact ih o
      | giveAlias x s =>
        by_cases hx : x < (runG T ops).w.objs.length ∧ (runG T ops).alive x
        · simp only [stepG, if_pos hx]; exact ih o
        · simp only [stepG, if_neg hx]; exact ih o
      | drop x => exact ih o
      | pickle => exact absurd (List.mem_append_right _ (List.mem_singleton.2 rfl)) hp
      | take k =>
        cases hk : lookupG (runG T ops) k with
        | obj x => simp only [stepG, hk]; exact ih o
        | nothing => simp only [stepG, hk]; exact ih o
        | error => simp only [stepG, hk]; exact ih o
  rw [runG_append]
  show (stepG T (runG T ops) (.drop o)).alive o = false
  simp [stepG, GWorld.alive, this ops hp o]

theorem held_stays (g : GWorld) (more : List GOp) (o : Nat) (h : g.held o = true) (hd : GOp.drop o ∉ more) :
    (more.foldl (fun (g : GWorld) (op : GOp) => stepG T g op) g).held o = true := by
  induction more generalizing g with
  | nil => exact h
  | cons op more ih =>
    refine ih (stepG T g op) ?_ (fun hm => hd (List.mem_cons_of_mem _ hm))
    cases op with
    | create c i =>
      by_cases hx : o = g.w.objs.length
      · simp [stepG, hx]
      · simp only [stepG, Function.update_of_ne hx]; exact h
    | giveAlias x s =>
      by_cases hx : x < g.w.objs.length ∧ g.alive x
      · simp only [stepG, if_pos hx]; exact h
      · simp only [stepG, if_neg hx]; exact h
    | drop x =>
      have hx : o ≠ x := fun e => hd (by rw [e]; exact List.mem_cons_self)
      simp only [stepG, Function.update_of_ne hx]; exact h
    | pickle => exact h
    | take k =>
      cases hk : lookupG g k with
      | obj x =>
        simp only [stepG, hk]
        by_cases hx : o = x
        · simp [hx]
        · rw [Function.update_of_ne hx]; exact h
      | nothing => simp only [stepG, hk]; exact h
      | error => simp only [stepG, hk]; exact h

/-- **C97**: an object exists from its creation, or after it was got by name, until the last reference is lost. -/
theorem C97_exists (ops more : List GOp) (o : Nat) (hd : GOp.drop o ∉ more) :
    (∀ c i, o = (runG T ops).w.objs.length → (runG T (ops ++ GOp.create c i :: more)).alive o = true) ∧
    (∀ k, lookupG (runG T ops) k = .obj o → (runG T (ops ++ GOp.take k :: more)).alive o = true) := by
  constructor
  · intro c i ho
    rw [runG_append]
    have := held_stays (T := T) (stepG T (runG T ops) (.create c i)) more o (by simp [stepG, ho]) hd
    unfold GWorld.alive
    rw [List.foldl_cons, this]
    rfl
  · intro k hk
    rw [runG_append]
    have := held_stays (T := T) (stepG T (runG T ops) (.take k)) more o (by simp [stepG, hk]) hd
    unfold GWorld.alive
    rw [List.foldl_cons, this]
    rfl

/-- **C97**: the lookup of a string raises if it is no name or alias of any object, existing or not. -/
theorem C97_unknown (hT : GoodTable T) (ops : List GOp) (hv : ∀ op ∈ ops, op.valid T) (hc : NoClash (runG T ops).w) (s : String)
    (hs : ∀ (o : Nat) (a : AliasObj), (runG T ops).w.objs[o]? = some a → some s ∉ a.members) : lookupG (runG T ops) (.str s) = .error := by
  obtain ⟨l, hl, e⟩ := runG_w ops hv
  have : getByNameOrAlias (runG T ops).w (.str s) = none := by
    cases h : getByNameOrAlias (runG T ops).w (.str s) with
    | none => rfl
    | some o =>
      rw [e] at hc h
      obtain ⟨a, ha, hm⟩ := ((C22_lookup_partial hT l hl hc).2.1 s o).1 h
      exact absurd hm (hs o a (by rw [e]; exact ha))
  simp [lookupG, this]

/-- A qubit with the alias `q` is lost: `q` is `None`, and after something was pickled an error; a second qubit cannot be called `q`. -/
example : let p : List GOp := [.create 17 false, .giveAlias 0 "q", .drop 0, .create 17 false, .giveAlias 1 "q"]
    lookupG (runG library p) (.str "q") = .nothing ∧ lookupG (runG library (p ++ [.pickle])) (.str "q") = .error ∧
    (runG library p).w.objs.map AliasObj.alias = [["q"], []] ∧
    lookupG (runG library [.create 17 false, .giveAlias 0 "q", .pickle, .drop 0]) (.str "q") = .obj 0 := by
  decide

end Verif.Names
