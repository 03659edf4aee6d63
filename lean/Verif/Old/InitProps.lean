import Verif.Old.Init

/-!
# C99: initial states of the older system classes
-/
namespace Verif.OldInit
open NMat
open Verif.Init (Inp orStored toExc ofKet maxInput allSome)
open OSt

theorem hasCreate_false (t : OSt) : hasCreate t = false := by
  cases t with
  | node k => cases k <;> simp [hasCreate, stateMethods]

theorem callCreate_raises (t : OSt) (p : List ℕ) (inp : Inp) (h : (at? t p).isSome) :
    callCreate t p inp = .error (if p = [] then .value else .attr) := by
  obtain ⟨q, hq⟩ := Option.isSome_iff_exists.1 h
  have hd : ∀ (p : List ℕ) (t : OSt), (at? t p).isSome → (at? t p.dropLast).isSome := by
    intro p
    induction p with
    | nil => intro t ht; exact ht
    | cons n r ih =>
      intro t ht
      cases r with
      | nil => cases t; rfl
      | cons m r =>
        cases t with
        | node k d c o x s =>
          rw [List.dropLast_cons_cons]
          unfold at? at ht ⊢
          cases hs : s[n]? with
          | none => rw [hs] at ht; exact absurd ht (by simp)
          | some t' => rw [hs] at ht; exact ih t' ht
  obtain ⟨q', hq'⟩ := Option.isSome_iff_exists.1 (hd p t h)
  unfold callCreate initSystem
  rw [hq]
  simp only [hasCreate_false]
  by_cases hp : p = []
  · simp [hp]
  · simp [hp, hq', hasCreate_false]

/-- Changes that leave the parts alone. -/
def Keeps (f : OSt → OSt) : Prop := ∀ t, (f t).subs = t.subs

theorem modify_at {f : OSt → OSt} (hf : Keeps f) : ∀ (p q : List ℕ) (t : OSt), (at? (change f t p) q).isSome = (at? t q).isSome
  | [], q, t => by
    have := hf t
    cases q with
    | nil => cases t; unfold change; unfold at?; rfl
    | cons n q =>
      unfold change
      generalize f t = u at this
      cases t; cases u
      simp only [subs] at this
      subst this
      rfl
  | n :: p, q, node k d c o x s => by
    unfold change
    cases hs : s[n]? with
    | none => rfl
    | some t =>
      cases q with
      | nil => simp [at?]
      | cons m q =>
        simp only
        unfold at?
        by_cases hnm : n = m
        · subst hnm
          have hl : n < s.length := (List.getElem?_eq_some_iff.1 hs).1
          rw [List.getElem?_set_self hl, hs]
          exact modify_at hf p q t
        · rw [List.getElem?_set_ne hnm]

theorem modify_self (f : OSt → OSt) : ∀ (p : List ℕ) (t : OSt), at? (change f t p) p = (at? t p).map f
  | [], t => by cases t; simp [change, at?]
  | n :: p, node k d c o x s => by
    unfold change
    cases hs : s[n]? with
    | none => simp [at?, hs]
    | some t =>
      have hl : n < s.length := (List.getElem?_eq_some_iff.1 hs).1
      simp only [at?, List.getElem?_set_self hl, hs]
      exact modify_self f p t

theorem keeps_clear : Keeps clearState := by rintro ⟨⟩; rfl
theorem keeps_input (i : Inp) : Keeps (setInput i) := by rintro ⟨⟩; rfl

theorem first_at (t : OSt) (p q : List ℕ) :
    (at? (if p = [] then t else change clearState t p.dropLast) q).isSome = (at? t q).isSome := by
  split
  · rfl
  · exact modify_at keeps_clear _ _ _

/-- **C99 (assigning).** Assigning an initial state to a system of the older classes raises, whatever the systems and whatever the
input: a `ValueError` for a system that stands alone, and for an empty list or dictionary; an `AttributeError` for a system inside a
composite. -/
theorem C99_assign_raises (t : OSt) (p : List ℕ) (inp : Inp) (h : (at? t p).isSome) :
    (assign t p inp).1 = some (if maxInput inp = none ∨ p = [] then .value else .attr) := by
  unfold assign
  cases hm : maxInput inp with
  | none => simp
  | some m =>
    simp only
    rw [callCreate_raises _ _ _ (by rw [modify_at (keeps_input inp), first_at]; exact h)]
    by_cases hp : p = [] <;> simp [hp]

/-- **C99 (the input stays).** Although the assignment raised, the input is kept (unless it was an empty list or dictionary). -/
theorem C99_input_kept (t : OSt) (p : List ℕ) (inp : Inp) (h : (at? t p).isSome) (hm : maxInput inp ≠ none) :
    ∃ q, at? (assign t p inp).2 p = some q ∧ q.own = some inp := by
  unfold assign
  cases hm' : maxInput inp with
  | none => exact absurd hm' hm
  | some m =>
    simp only
    rw [callCreate_raises _ _ _ (by rw [modify_at (keeps_input inp), first_at]; exact h)]
    simp only
    have h' : (at? (if p = [] then t else change clearState t p.dropLast) p).isSome := by rw [first_at]; exact h
    obtain ⟨q, hq⟩ := Option.isSome_iff_exists.1 h'
    refine ⟨setInput inp q, by rw [modify_self, hq]; rfl, ?_⟩
    cases q; rfl

/-! ### Everything that can be reached -/

/-- Add a part at the end (`QSys.py:455-466`). -/
def addPart (part : OSt) : OSt → OSt | node k d c o x s => node k d c o x (s ++ [part])
/-- Give a dimension. -/
def setDim (d : Dim) : OSt → OSt | node k _ c o x s => node k d c o x s
/-- Give `_inpCoef`. -/
def setCoef (c : Bool) : OSt → OSt | node k d _ o x s => node k d c o x s

/-- The systems that can be made by creating, adding, giving dimensions and assigning initial states (and reading them, which changes
nothing), in any order. -/
inductive Reach : OSt → Prop
  | single : Reach (node false .unset false none none [])
  | comp : Reach (node true .unset false none none [])
  | add (t part : OSt) (p : List ℕ) : Reach t → Reach part → Reach (change (addPart part) t p)
  | dim (t : OSt) (p : List ℕ) (d : Dim) : Reach t → Reach (change (setDim d) t p)
  | coef (t : OSt) (p : List ℕ) (c : Bool) : Reach t → Reach (change (setCoef c) t p)
  | assign (t : OSt) (p : List ℕ) (inp : Inp) : Reach t → (at? t p).isSome → Reach (assign t p inp).2

mutual
/-- No system has a state. -/
def NoState : OSt → Prop
  | node _ _ _ _ x s => x = none ∧ NoStates s
/-- The same for lists. -/
def NoStates : List OSt → Prop
  | [] => True
  | t :: r => NoState t ∧ NoStates r
end

theorem noStates_iff : ∀ s : List OSt, NoStates s ↔ ∀ t ∈ s, NoState t
  | [] => by simp [NoStates]
  | t :: r => by simp [NoStates, noStates_iff r]

theorem modify_noState {f : OSt → OSt} (hf : ∀ t, NoState t → NoState (f t)) : ∀ (p : List ℕ) (t : OSt), NoState t → NoState (change f t p)
  | [], t, h => by unfold change; exact hf t h
  | n :: p, node k d c o x s, h => by
    unfold change
    cases hs : s[n]? with
    | none => exact h
    | some t =>
      simp only [NoState] at h ⊢
      refine ⟨h.1, ?_⟩
      rw [noStates_iff] at h ⊢
      intro u hu
      rcases List.mem_or_eq_of_mem_set hu with hu | rfl
      · exact h.2 u hu
      · exact modify_noState hf p t (h.2 t (List.mem_of_getElem? hs))

theorem reach_noState {t : OSt} (h : Reach t) : NoState t := by
  induction h with
  | single => simp [NoState, NoStates]
  | comp => simp [NoState, NoStates]
  | add t part p _ _ ih ihp =>
    refine modify_noState ?_ p t ih
    rintro ⟨k, d, c, o, x, s⟩ h
    simp only [addPart, NoState, noStates_iff] at h ⊢
    refine ⟨h.1, ?_⟩
    intro u hu
    rcases List.mem_append.1 hu with hu | hu
    · exact h.2 u hu
    · rw [List.mem_singleton.1 hu]; exact ihp
  | dim t p d _ ih => exact modify_noState (by rintro ⟨⟩ h; exact h) p t ih
  | coef t p c _ ih => exact modify_noState (by rintro ⟨⟩ h; exact h) p t ih
  | assign t p inp _ hp ih =>
    have hc : ∀ t, NoState t → NoState (clearState t) := by rintro ⟨⟩ h; simp only [clearState, NoState] at h ⊢; exact ⟨trivial, h.2⟩
    have hi : ∀ t, NoState t → NoState (setInput inp t) := by rintro ⟨⟩ h; exact h
    have h1 : NoState (if p = [] then t else change clearState t p.dropLast) := by
      split
      · exact ih
      · exact modify_noState hc _ _ ih
    unfold OldInit.assign
    cases hm : maxInput inp with
    | none => exact h1
    | some m =>
      simp only
      rw [callCreate_raises _ _ _ (by rw [modify_at (keeps_input inp), first_at]; exact hp)]
      exact modify_noState hi _ _ h1

theorem stateAt_none : ∀ (p : List ℕ) (t : OSt), NoState t → stateAt none t p = none
  | [], node k d c o x s, h => by simp only [NoState] at h; simp [stateAt, h.1]
  | n :: p, node k d c o x s, h => by
    simp only [NoState] at h
    unfold stateAt
    rw [h.1]
    cases hs : s[n]? with
    | none => rfl
    | some t => exact stateAt_none p t ((noStates_iff s).1 h.2 t (List.mem_of_getElem? hs))

/-- **C99 (reading).** Whatever was created, added and assigned before, reading the initial state of a system of the older classes, alone
or inside a composite, raises a `ValueError`: there never is a state to read. -/
theorem C99_read_raises {t : OSt} (h : Reach t) (p : List ℕ) (_hp : (at? t p).isSome) : read t p = .error .value := by
  have key : ∀ (n : ℕ) (p : List ℕ), p.length = n → read t p = .error .value := by
    intro n
    induction n with
    | zero =>
      intro p hn
      obtain rfl := List.length_eq_zero_iff.1 hn
      unfold read
      rw [stateAt_none _ _ (reach_noState h)]
      simp only [if_true]
      rw [callCreate_raises _ _ _ (by cases t; rfl)]
      rfl
    | succ n ih =>
      intro p hn
      have hne : p ≠ [] := by rintro rfl; simp at hn
      unfold read
      rw [stateAt_none _ _ (reach_noState h)]
      simp only [hne, if_false]
      exact ih _ (by rw [List.length_dropLast]; omega)
  exact key _ p rfl

/-! ### Copies -/

mutual
/-- Some system of the tree was assigned an input. -/
def Holds : OSt → Prop
  | node _ _ _ o _ s => (∃ i, o = some i ∧ i ≠ .none) ∨ HoldsL s
/-- The same for lists. -/
def HoldsL : List OSt → Prop
  | [] => False
  | t :: r => Holds t ∨ HoldsL r
end

theorem unit_ne_error {r : Except Err Unit} : r ≠ .ok () ↔ ∃ e, r = .error e := by
  cases r <;> simp

mutual
/-- **C99 (copying).** A system of the older classes can be copied exactly when no initial state was ever assigned (successfully or not)
to it or to a system inside it; otherwise the copy raises. -/
theorem C99_copy_iff : ∀ t : OSt, copy t = .ok () ↔ ¬ Holds t
  | node k d c o x s => by
    have ih := C99_copy_iffL s
    have ha : ∀ i, ∃ e, (assign (node k d c none none s) [] i).1 = some e :=
      fun i => ⟨_, C99_assign_raises _ [] i (by rfl)⟩
    unfold copy Holds
    cases hc : copyParts s with
    | error e =>
      rw [hc] at ih
      have : HoldsL s := by
        by_contra hn
        exact absurd (ih.2 hn) (by simp)
      simp [this]
    | ok u =>
      rw [hc] at ih
      have hn : ¬ HoldsL s := ih.1 rfl
      cases o with
      | none => simp [eff, hn]
      | some i =>
        obtain ⟨e, he⟩ := ha i
        cases i <;> simp [eff, hn] <;> rw [he] <;> simp
theorem C99_copy_iffL : ∀ s : List OSt, copyParts s = .ok () ↔ ¬ HoldsL s
  | [] => by simp [copyParts, HoldsL]
  | t :: r => by
    have h1 := C99_copy_iff t
    have h2 := C99_copy_iffL r
    unfold copyParts HoldsL
    cases hc : copy t with
    | error e =>
      rw [hc] at h1
      have : Holds t := by
        by_contra hn
        exact absurd (h1.2 hn) (by simp)
      simp [this]
    | ok u =>
      rw [hc] at h1
      have : ¬ Holds t := h1.1 rfl
      simp [this, h2]
end

theorem holds_at : ∀ (p : List ℕ) (t q : OSt) (i : Inp), at? t p = some q → q.own = some i → i ≠ .none → Holds t
  | [], t, q, i, h, ho, hi => by
    simp only [at?, Option.some.injEq] at h
    subst h
    cases t
    exact Or.inl ⟨i, ho, hi⟩
  | n :: p, node k d c o x s, q, i, h, ho, hi => by
    unfold at? at h
    cases hs : s[n]? with
    | none => rw [hs] at h; cases h
    | some t =>
      rw [hs] at h
      have := holds_at p t q i h ho hi
      refine Or.inr ?_
      have hm := List.mem_of_getElem? hs
      clear hs h
      induction s with
      | nil => cases hm
      | cons u r ih =>
        rcases List.mem_cons.1 hm with rfl | hm
        · exact Or.inl this
        · exact Or.inr (ih hm)

/-- **C99 (a failed assignment spoils copying).** After an assignment, which raised, to any system of a tree the tree cannot be copied
any more. -/
theorem C99_copy_after (t : OSt) (p : List ℕ) (inp : Inp) (h : (at? t p).isSome) (hm : maxInput inp ≠ none) (hi : inp ≠ .none) :
    copy (assign t p inp).2 ≠ .ok () := by
  obtain ⟨q, hq, ho⟩ := C99_input_kept t p inp h hm
  rw [Ne, C99_copy_iff, not_not]
  exact holds_at p _ q inp hq ho hi

end Verif.OldInit
