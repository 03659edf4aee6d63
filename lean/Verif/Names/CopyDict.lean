import Verif.Names.Dict

/-!
# Copies of an `aliasDict` (C25)
-/
namespace Verif.Names

variable {V : Type}

/-- `aliasDict.copy` (`base.py:298-302`): `type(self)(self)`, the constructor of the built-in dictionary.  It enters the entries of the
other dictionary by their hash values and does not use the extended methods of `aliasDict`, since `__iter__` is not extended. -/
def acopy (σ : Env) (d : ADict V) : ADict V := d.foldl (fun (acc : ADict V) (e : Key × V) => rawSet σ acc e.1 e.2) []

theorem rawSet_new (σ : Env) (acc : ADict V) (e : Key × V) (h : ∀ x ∈ acc, hashOf σ x.1 ≠ hashOf σ e.1) :
    rawSet σ acc e.1 e.2 = acc ++ [e] := by
  induction acc with
  | nil => rfl
  | cons x acc ih =>
    have hx := h x (by simp)
    rw [rawSet, if_neg (by simpa using hx), ih fun y hy => h y (by simp [hy])]
    rfl

/-- **C25** the copy has the same entries in the same order, whatever aliases its keys have got; so every lookup, test, assignment and
deletion gives the same on the copy. -/
theorem C25_copy (σ : Env) (d : ADict V) (hd : WF σ d) : acopy σ d = d := by
  have key : ∀ (rest acc : ADict V), WF σ (acc ++ rest) →
      rest.foldl (fun (acc : ADict V) (e : Key × V) => rawSet σ acc e.1 e.2) acc = acc ++ rest := by
    intro rest
    induction rest with
    | nil => intro acc _; simp
    | cons e rest ih =>
      intro acc h
      have h1 := (wf_split h).1
      rw [List.foldl_cons, rawSet_new σ acc e h1, ih (acc ++ [e]) (by simpa using h)]
      simp
  simpa [acopy] using key d [] (by simpa using hd)

/-- **C25** (negation) an empty `aliasDict` updated with the dictionary is not a copy: an object that has got the alias "a" after it was
entered and the string "a" are one key there, and the value of the object is lost. -/
theorem C25_update_no_copy : ∃ (σ : Env) (d : ADict Nat), WF σ d ∧ d.length = 2 ∧ acopy σ d = d ∧
    (aupdate σ [] d).length = 1 ∧ aget σ d (.ali 0) = some 1 ∧ aget σ (acopy σ d) (.ali 0) = some 1 ∧ aget σ (aupdate σ [] d) (.ali 0) = some 2 := by
  have hw : WF (fun _ => (⟨some "c", ["a"]⟩ : AliasObj)) [(Key.ali 0, 1), (Key.str "a", 2)] := by
    simp [WF, hashOf]
  exact ⟨fun _ => ⟨some "c", ["a"]⟩, [(.ali 0, 1), (.str "a", 2)], hw, rfl, C25_copy _ _ hw, by decide, by decide, by decide, by decide⟩

end Verif.Names
