import Verif.Units.Model
import Mathlib.Data.List.Induction

/-!
# The constants follow the settings (C102)
-/
namespace Verif.Units

variable {V C : Type}

/-- What a statement gives to the attribute `k` of `settings`; deleted: `some none`. -/
def attrOf (k : String) : Cmd V C → Option (Option V)
  | .setItem k' v => if k' = .str k then some (some v) else none
  | .setAttr k' v => if k' = k then some (some v) else none
  | .delAttr k' => if k' = k then some none else none
  | _ => none

/-- What a history gave last to the attribute `k`. -/
def lastAttr (k : String) (l : List (Cmd V C)) : Option (Option V) := l.reverse.findSome? (attrOf k)

theorem lastAttr_snoc (k : String) (l : List (Cmd V C)) (c : Cmd V C) :
    lastAttr k (l ++ [c]) = (attrOf k c).or (lastAttr k l) := by
  simp only [lastAttr, List.reverse_append, List.reverse_singleton, List.singleton_append, List.findSome?_cons]
  cases attrOf k c <;> rfl

theorem run_snoc (no : V) (l : List (Cmd V C)) (c : Cmd V C) :
    run no (l ++ [c]) = match step (run no l) c with
      | .ok st' => st'
      | .error _ => run no l := by 
  unfold run; rw [List.foldl_append]; rfl

/-- **C102** after any history an attribute of `settings` has the value that was given last to it, as an attribute or as an item. -/
theorem C102_attribute (no : V) (l : List (Cmd V C)) (k : String) :
    (run no l).attrs k = (lastAttr k l).getD (if k = "trueVals" then some no else none) := by
  induction l using List.reverseRecOn with
  | nil => simp [run, start, upd, lastAttr]
  | append_singleton l c ih =>
    rw [run_snoc, lastAttr_snoc]
    cases c with
    | setItem k' v =>
      cases k' with
      | str s =>
        by_cases h : k = s
        · subst h; simp [step, setItem, upd, attrOf]
        · have : ¬ (s = k) := fun e => h e.symm
          simp [step, setItem, upd, attrOf, h, this, ih]
      | other n => simp [step, setItem, attrOf, ih]
    | setAttr k' v =>
      by_cases h : k = k'
      · subst h; simp [step, upd, attrOf]
      · have : ¬ (k' = k) := fun e => h e.symm
        simp [step, upd, attrOf, h, this, ih]
    | update it => simp [step, attrOf, ih]
    | delItem k' =>
      simp only [step]
      cases h : (run no l).items k' <;> simp [attrOf, ih]
    | delAttr k' =>
      simp only [step]
      by_cases hk : k = k'
      · subst hk
        cases h : (run no l).attrs k with
        | none => simp [attrOf, h]
        | some v => simp [attrOf, upd]
      · have : ¬ (k' = k) := fun e => hk e.symm
        cases h : (run no l).attrs k' <;> simp [attrOf, upd, hk, this, ih]
    | constItem k' x => simp [step, attrOf, ih]
    | constAttr k' x => simp [step, attrOf, ih]

/-- What a statement gives to the item `k`; deleted: `some none`. -/
def itemOf (k : Key) : Cmd V C → Option (Option V)
  | .setItem (.str s) v => if .str s = k then some (some v) else none
  | .update l => (l.reverse.find? fun p => p.1 = k).map fun p => some p.2
  | .delItem k' => if k' = k then some none else none
  | _ => none

/-- What a history gave last to the item `k`. -/
def lastItem (k : Key) (l : List (Cmd V C)) : Option (Option V) := l.reverse.findSome? (itemOf k)

theorem lastItem_snoc (k : Key) (l : List (Cmd V C)) (c : Cmd V C) :
    lastItem k (l ++ [c]) = (itemOf k c).or (lastItem k l) := by
  simp only [lastItem, List.reverse_append, List.reverse_singleton, List.singleton_append, List.findSome?_cons]
  cases itemOf k c <;> rfl

theorem updateItems_get (f : Key → Option V) (l : List (Key × V)) (k : Key) :
    updateItems f l k = ((l.reverse.find? fun p => p.1 = k).map Prod.snd).or (f k) := by
  induction l generalizing f with
  | nil => rfl
  | cons p l ih =>
    have : updateItems f (p :: l) = updateItems (upd f p.1 (some p.2)) l := rfl
    rw [this, ih, List.reverse_cons, List.find?_append]
    cases h : l.reverse.find? fun p => p.1 = k with
    | some q => simp
    | none =>
      by_cases hp : p.1 = k
      · simp [upd, hp]
      · have : ¬ (k = p.1) := fun e => hp e.symm
        simp [upd, hp, this]

/-- **C102** after any history an item of `settings` has the value that was given last to it by an assignment or `update`. -/
theorem C102_item (no : V) (l : List (Cmd V C)) (k : Key) :
    (run no l).items k = (lastItem k l).getD (if k = .str "trueVals" then some no else none) := by
  induction l using List.reverseRecOn with
  | nil => simp [run, start, upd, lastItem]
  | append_singleton l c ih =>
    rw [run_snoc, lastItem_snoc]
    cases c with
    | setItem k' v =>
      cases k' with
      | str s =>
        by_cases h : k = .str s
        · subst h; simp [step, setItem, upd, itemOf]
        · have : ¬ (Key.str s = k) := fun e => h e.symm
          simp [step, setItem, upd, itemOf, h, this, ih]
      | other n => simp [step, setItem, itemOf, ih]
    | setAttr k' v => simp [step, itemOf, ih]
    | update it =>
      simp only [step, itemOf]
      rw [updateItems_get]
      cases h : it.reverse.find? fun p => p.1 = k <;> simp [ih]
    | delItem k' =>
      simp only [step]
      by_cases hk : k = k'
      · subst hk
        cases h : (run no l).items k with
        | none => simp [itemOf, h]
        | some v => simp [itemOf, upd]
      · have : ¬ (k' = k) := fun e => hk e.symm
        cases h : (run no l).items k' <;> simp [itemOf, upd, hk, this, ih]
    | delAttr k' =>
      simp only [step]
      cases h : (run no l).attrs k' <;> simp [itemOf, ih]
    | constItem k' x => simp [step, itemOf, ih]
    | constAttr k' x => simp [step, itemOf, ih]

variable (truthy : V → Bool) (si one : C)

/-- **C102** after any history of assignments `settings[...] = ...` with strings the settings read as attributes and as items are the
same, and `constants["hbar"]` and `constants.hbar` are the SI value if the value assigned last to `"trueVals"` is true, else one. -/
theorem C102_follows_partial (no : V) (hno : truthy no = false) (l : List (String × V)) :
    let st : St V C := run no (l.map fun p => .setItem (.str p.1) p.2)
    (∀ k, st.attrs k = st.items (.str k)) ∧
    const truthy si one st (.str "hbar") = .ok (if (l.reverse.find? fun p => p.1 = "trueVals").any (fun p => truthy p.2) then si else one) ∧
    constAttr truthy si one st "hbar" = const truthy si one st (.str "hbar") := by
  intro st
  have hattr : ∀ (k : String) (l : List (String × V)), lastAttr k (l.map fun p => (Cmd.setItem (.str p.1) p.2 : Cmd V C)) =
      (l.reverse.find? fun p => p.1 = k).map fun p => some p.2 := by
    intro k l
    induction l using List.reverseRecOn with
    | nil => rfl
    | append_singleton l p ih =>
      rw [List.map_append, List.map_singleton, lastAttr_snoc, ih, List.reverse_append]
      by_cases h : p.1 = k
      · simp [attrOf, h]
      · simp [attrOf, h]
  have hitem : ∀ (k : String) (l : List (String × V)), lastItem (.str k) (l.map fun p => (Cmd.setItem (.str p.1) p.2 : Cmd V C)) =
      (l.reverse.find? fun p => p.1 = k).map fun p => some p.2 := by
    intro k l
    induction l using List.reverseRecOn with
    | nil => rfl
    | append_singleton l p ih =>
      rw [List.map_append, List.map_singleton, lastItem_snoc, ih, List.reverse_append]
      by_cases h : p.1 = k
      · simp [itemOf, h]
      · simp [itemOf, h]
  have hc : ∀ l : List (String × V), (run no (l.map fun p => (Cmd.setItem (.str p.1) p.2 : Cmd V C))).cAttrs = fun _ => none := by
    intro l
    induction l using List.reverseRecOn with
    | nil => rfl
    | append_singleton l p ih => rw [List.map_append, List.map_singleton, run_snoc]; exact ih
  refine ⟨fun k => ?_, ?_, ?_⟩
  · simp only [st]
    rw [C102_attribute, C102_item, hattr, hitem]
    simp
  · simp only [const, attr, st]
    rw [C102_attribute, hattr]
    cases l.reverse.find? fun p => p.1 = "trueVals" with
    | none => simp [hno]
    | some p => simp
  · simp only [constAttr, st]
    rw [hc]

/-- **C102** after any history the constant is decided by the value given last to the attribute or the item `"trueVals"`: by
`settings["trueVals"] = v` and `settings.trueVals = v`, and by nothing else. -/
theorem C102_decided (no : V) (l : List (Cmd V C)) :
    const truthy si one (run no l) (.str "hbar") = match (lastAttr "trueVals" l).getD (some no) with
      | some v => .ok (if truthy v then si else one)
      | none => .error .attribute := by
  simp only [const, attr]
  rw [C102_attribute]
  simp only [if_true]
  cases (lastAttr "trueVals" l).getD (some no) <;> rfl

/-- **C102** (negation) `settings.update` changes the item and is not noticed by the constants. -/
theorem C102_update_ignored (no v : V) (l : List (Cmd V C)) :
    let st := run no (l ++ [.update [(.str "trueVals", v)]])
    item st (.str "trueVals") = .ok v ∧ ∀ k, const truthy si one st k = const truthy si one (run no l) k := by
  intro st
  have h : st = { run no l with items := updateItems (run no l).items [(.str "trueVals", v)] } := by
    simp only [st]; rw [run_snoc]; rfl
  constructor
  · rw [h]; simp [item, updateItems, upd]
  · intro k; rw [h]; rfl

/-- **C102** (negation) `settings.trueVals = v` changes the constants, but not what `settings["trueVals"]` shows. -/
theorem C102_attribute_only (no v : V) (l : List (Cmd V C)) :
    let st := run no (l ++ [.setAttr "trueVals" v])
    const truthy si one st (.str "hbar") = .ok (if truthy v then si else one) ∧
    ∀ k, item st k = item (run no l) k := by
  intro st
  have h : st = { run no l with attrs := upd (run no l).attrs "trueVals" (some v) } := by
    simp only [st]; rw [run_snoc]; rfl
  rw [h]
  exact ⟨by simp [const, attr, upd], fun k => rfl⟩

/-- **C102** (negation) `del settings["trueVals"]` leaves the constants as they were. -/
theorem C102_deleted (no v : V) (l : List (Cmd V C)) :
    let st := run no (l ++ [.setItem (.str "trueVals") v, .delItem (.str "trueVals")])
    item st (.str "trueVals") = .error .key ∧ const truthy si one st (.str "hbar") = .ok (if truthy v then si else one) := by
  intro st
  have h : st = run no ((l ++ [.setItem (.str "trueVals") v]) ++ [.delItem (.str "trueVals")]) := by simp [st]
  rw [run_snoc, run_snoc] at h
  have h2 : ∀ st : St V C, (upd st.items (.str "trueVals") (some v)) (.str "trueVals") = some v := fun st => by simp [upd]
  simp only [step, setItem, h2] at h
  rw [h]
  exact ⟨by simp [item, upd], by simp [const, attr, upd]⟩

/-- **C102** there is no other constant: any other key raises `KeyError`, and a name that was not assigned raises `KeyError` instead
of `AttributeError`, so that `hasattr(constants, name)` raises. -/
theorem C102_unknown (st : St V C) (k : String) (v : V) (hk : k ≠ "hbar") (hs : st.attrs "trueVals" = some v) (ha : st.cAttrs k = none) :
    const truthy si one st (.str k) = .error .key ∧ constAttr truthy si one st k = .error .key ∧
    hasConst truthy si one st k = .error .key := by
  have h : const truthy si one st (.str k) = .error .key := by simp [const, attr, hs, hk]
  have h2 : constAttr truthy si one st k = .error .key := by simp [constAttr, ha, h]
  exact ⟨h, h2, by simp [hasConst, h2]⟩

/-- What a history assigned last to the attribute of `constants`. -/
def lastConst (k : String) (l : List (Cmd V C)) : Option C :=
  l.reverse.findSome? fun c => match c with
    | .constAttr k' x => if k' = k then some x else none
    | _ => none

theorem cAttrs_run (no : V) (l : List (Cmd V C)) (k : String) : (run no l).cAttrs k = lastConst k l := by
  induction l using List.reverseRecOn with
  | nil => rfl
  | append_singleton l c ih =>
    have hl : lastConst k (l ++ [c]) = ((match c with
        | .constAttr k' x => if k' = k then some x else none
        | _ => none : Option C).or (lastConst k l)) := by
      simp only [lastConst, List.reverse_append, List.reverse_singleton, List.singleton_append, List.findSome?_cons]
      cases c with
      | constAttr k' x => by_cases h : k' = k <;> simp [h]
      | _ => rfl
    rw [run_snoc, hl]
    cases c with
    | setItem k' v => cases k' <;> simp [step, setItem, ih]
    | setAttr k' v => simp [step, ih]
    | update it => simp [step, ih]
    | delItem k' => simp only [step]; cases (run no l).items k' <;> simp [ih]
    | delAttr k' => simp only [step]; cases (run no l).attrs k' <;> simp [ih]
    | constItem k' x => simp [step, ih]
    | constAttr k' x =>
      by_cases h : k = k'
      · subst h; simp [step, upd]
      · have : ¬ (k' = k) := fun e => h e.symm
        simp [step, upd, h, this, ih]

/-- **C102** (negation) once `constants.hbar = x` has been executed, `constants.hbar` is the value assigned last, whatever the settings
are; without such an assignment it is `constants["hbar"]`. -/
theorem C102_shadowed (no : V) (l : List (Cmd V C)) :
    constAttr truthy si one (run no l) "hbar" = match lastConst "hbar" l with
      | some x => .ok x
      | none => const truthy si one (run no l) (.str "hbar") := by
  simp only [constAttr]
  rw [cAttrs_run]
  cases lastConst "hbar" l <;> rfl

theorem cItems_run (no : V) (l : List (Cmd V C)) (h : ∀ k x, Cmd.constItem k x ∉ l) (k : Key) : (run no l).cItems k = none := by
  induction l using List.reverseRecOn with
  | nil => rfl
  | append_singleton l c ih =>
    have ih' := ih fun k x hm => h k x (by simp [hm])
    rw [run_snoc]
    cases c with
    | setItem k' v => cases k' <;> simp [step, setItem, ih']
    | setAttr k' v => simp [step, ih']
    | update it => simp [step, ih']
    | delItem k' => simp only [step]; cases (run no l).items k' <;> simp [ih']
    | delAttr k' => simp only [step]; cases (run no l).attrs k' <;> simp [ih']
    | constItem k' x => exact absurd (by simp) (h k' x)
    | constAttr k' x => simp [step, ih']

/-- **C102** `constants` is an empty dictionary: `constants.get` gives `None` for every key, and a value stored by
`constants["hbar"] = x` is found by `get` only. -/
theorem C102_get (no : V) (l : List (Cmd V C)) (h : ∀ k x, Cmd.constItem k x ∉ l) (x : C) :
    (∀ k, constGet (run no l) k = none) ∧
    let st := run no (l ++ [.constItem (.str "hbar") x])
    constGet st (.str "hbar") = some x ∧ const truthy si one st (.str "hbar") = const truthy si one (run no l) (.str "hbar") := by
  refine ⟨cItems_run no l h, ?_⟩
  intro st
  have hs : st = { run no l with cItems := upd (run no l).cItems (.str "hbar") (some x) } := by
    simp only [st]; rw [run_snoc]; rfl
  rw [hs]
  exact ⟨by simp [constGet, upd], rfl⟩

/-! ## Examples: values are Booleans, constants numbers -/

example : const id 6 1 (run (C := Nat) false [.setItem (.str "trueVals") true]) (.str "hbar") = .ok 6 := by rfl
example : const id 6 1 (run (C := Nat) false [.setItem (.str "trueVals") true, .setItem (.str "a") true, .setItem (.str "trueVals") false])
    (.str "hbar") = .ok 1 := by rfl
example : const id 6 1 (run (C := Nat) false [.setItem (.other 0) true, .delAttr "trueVals"]) (.str "hbar") = .error .attribute := by rfl
example : item (run (V := Bool) (C := Nat) false [.setAttr "trueVals" true]) (.str "trueVals") = .ok false := by rfl
example : constAttr id 6 1 (run (C := Nat) false [.constAttr "hbar" 3, .setItem (.str "trueVals") true]) "hbar" = .ok 3 := by rfl
example : hasConst id 6 1 (run (C := Nat) false []) "kB" = .error .key := by rfl

end Verif.Units
