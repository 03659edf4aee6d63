/-!
# C95: lists that are changed after they were assigned

`operator` and `order` of a coupling keep the very list object that was assigned (`classes/QTerms.py:157-190`); a new assignment is noticed by
comparing with the content the old list has *now* (`setAttr`, `classes/QSimBase.py:39-47`).  The model has a memory of list objects that the
user may change at any time and any number of couplings holding references into it.  Simplifications: the attributes are elements of a type `A`
(`operator` and `order` in the library) with values in one type `α` that also contains the initial values; equal values are interchangeable;
systems and dimensions are fixed (C67); the check of Pauli operators is left out (C91); `build` stands for the product of the matrices of
the sub-terms (`none`: an exception), `smul` for the product with the frequency.
-/
namespace Verif.Term.Shared

variable {A α F M H : Type} [DecidableEq A] [DecidableEq α] [DecidableEq F]

/-- A coupling (`QTerms.py:43-72`): the list objects held as attributes, the values given to the sub-terms, the frequency, `__paramUpdated`,
`__matrix` and `__HamiltonianTerm`. -/
structure Cpl (A α F M H : Type) where
  held : A → Option Nat
  subs : A → List α
  freq : Option F
  flag : Bool
  mat : Option M
  ham : Option H

/-- All list objects with their present content, and all couplings. -/
structure St (A α F M H : Type) where
  lists : Nat → List α
  cpl : Nat → Cpl A α F M H

/-- What is fixed: the number of systems of each coupling, the initial values of the sub-terms, and the matrix operations. -/
structure Alg (A α F M H : Type) where
  size : Nat → Nat
  init : Nat → A → List α
  build : Nat → (A → List α) → Option M
  smul : F → M → H

/-- A new coupling. -/
def Cpl.new (alg : Alg A α F M H) (t : Nat) : Cpl A α F M H := ⟨fun _ => none, alg.init t, none, true, none, none⟩

/-- The couplings are new, the lists arbitrary. -/
def St.new (alg : Alg A α F M H) (lists : Nat → List α) : St A α F M H := ⟨lists, Cpl.new alg⟩

/-- Replace one value of a function. -/
def upd {K V : Type} [DecidableEq K] (f : K → V) (k : K) (v : V) : K → V := fun x => if x = k then v else f x

/-- `setAttr(self, attrName, vals)` (`QSimBase.py:44-47`) for the list object `r`: nothing happens if the list held so far has the same
content now. -/
def setAttr (lists : Nat → List α) (c : Cpl A α F M H) (a : A) (r : Nat) : Cpl A α F M H :=
  if (c.held a).map lists = some (lists r) then c else { c with held := upd c.held a (some r), flag := true }

/-- `term.operator = vals`, `term.order = vals` (`QTerms.py:175-190`) for a coupling of `n` systems: the length is checked, the values are
given to the sub-terms, the list is kept, and the matrix of a marked coupling is dropped.  `none`: ValueError. -/
def assign (n : Nat) (lists : Nat → List α) (c : Cpl A α F M H) (a : A) (r : Nat) : Option (Cpl A α F M H) :=
  if (lists r).length = n then
    let c := setAttr lists { c with subs := upd c.subs a (lists r) } a r
    some (if c.flag then { c with mat := none } else c)
  else none

/-- `term.frequency = w` (`QTerms.py:226-230`). -/
def setFreq (c : Cpl A α F M H) (w : Option F) : Cpl A α F M H :=
  if w = c.freq then c else { c with freq := w, flag := true }

/-- `_freeMatrix` (`QTerms.py:245-252`, `_constructMatrices` `:310-325`): made from the sub-terms if there is none. -/
def freeMatrix (alg : Alg A α F M H) (t : Nat) (c : Cpl A α F M H) : Option M × Cpl A α F M H :=
  match c.mat with
  | some m => (some m, c)
  | none => match alg.build t c.subs with
    | none => (none, c)
    | some m => (some m, { c with mat := some m, ham := none })

/-- `term.totalHamiltonian` (`QTerms.py:232-242`).  `none`: an exception. -/
def total (alg : Alg A α F M H) (t : Nat) (c : Cpl A α F M H) : Option H × Cpl A α F M H :=
  match c.freq with
  | none => (none, c)
  | some w =>
    if c.ham.isNone || c.flag || c.mat.isNone then
      match freeMatrix alg t c with
      | (none, c) => (none, c)
      | (some m, c) => (some (alg.smul w m), { c with ham := some (alg.smul w m), flag := false })
    else (c.ham, c)

/-- What the user does: change the content of a list object in place (`l[i] = x`, `l.append(x)`, `l.clear()`, …), assign a list object,
assign a frequency, read the Hamiltonian, `delMatrices()` (`baseClasses.py:218-228`). -/
inductive Cmd (A α F : Type)
  | change (r : Nat) (l : List α)
  | assign (t : Nat) (a : A) (r : Nat)
  | freq (t : Nat) (w : Option F)
  | total (t : Nat)
  | delete (t : Nat)

/-- One command; an assignment that raises changes nothing. -/
def step (alg : Alg A α F M H) (st : St A α F M H) : Cmd A α F → St A α F M H
  | .change r l => { st with lists := upd st.lists r l }
  | .assign t a r => match assign (alg.size t) st.lists (st.cpl t) a r with
    | none => st
    | some c => { st with cpl := upd st.cpl t c }
  | .freq t w => { st with cpl := upd st.cpl t (setFreq (st.cpl t) w) }
  | .total t => { st with cpl := upd st.cpl t (total alg t (st.cpl t)).2 }
  | .delete t => { st with cpl := upd st.cpl t { st.cpl t with mat := none } }

/-- A program. -/
def exec (alg : Alg A α F M H) : St A α F M H → List (Cmd A α F) → St A α F M H
  | st, [] => st
  | st, c :: cs => exec alg (step alg st c) cs

/-- The values an attribute shows now: what `list(term.operator)` gives, or the initial values. -/
def shown (alg : Alg A α F M H) (st : St A α F M H) (t : Nat) (a : A) : List α :=
  match (st.cpl t).held a with
  | none => alg.init t a
  | some r => st.lists r

/-- No list is changed while a coupling holds it. -/
def Careful (alg : Alg A α F M H) : St A α F M H → List (Cmd A α F) → Prop
  | _, [] => True
  | st, c :: cs => (match c with
    | .change r _ => ∀ t a, (st.cpl t).held a ≠ some r
    | _ => True) ∧ Careful alg (step alg st c) cs

/-! ## Invariants -/

theorem exec_append (alg : Alg A α F M H) (cs : List (Cmd A α F)) : ∀ (st : St A α F M H) (ds : List (Cmd A α F)),
    exec alg st (cs ++ ds) = exec alg (exec alg st cs) ds := by
  induction cs with
  | nil => intro st ds; rfl
  | cons c cs ih => intro st ds; exact ih _ ds

theorem upd_same {K V : Type} [DecidableEq K] (f : K → V) (k : K) (v : V) : upd f k v k = v := by simp [upd]

theorem upd_other {K V : Type} [DecidableEq K] (f : K → V) {k x : K} (v : V) (h : x ≠ k) : upd f k v x = f x := by simp [upd, h]

theorem upd_id {K V : Type} [DecidableEq K] (f : K → V) (k : K) : upd f k (f k) = f := by
  funext x; by_cases h : x = k <;> simp [upd, h]

/-- The Hamiltonian of an unmarked coupling is the frequency times the stored matrix. -/
def Product (alg : Alg A α F M H) (c : Cpl A α F M H) : Prop :=
  c.flag = false → ∀ h m, c.ham = some h → c.mat = some m → ∃ w, c.freq = some w ∧ h = alg.smul w m

/-- The stored matrix is that of the sub-terms, and these have the values shown. -/
def Fresh (alg : Alg A α F M H) (lists : Nat → List α) (t : Nat) (c : Cpl A α F M H) : Prop :=
  (∀ m, c.mat = some m → alg.build t c.subs = some m) ∧ ∀ a, c.subs a = match c.held a with
    | none => alg.init t a
    | some r => lists r

theorem product_assign {alg : Alg A α F M H} {n : Nat} {lists : Nat → List α} {c c' : Cpl A α F M H} {a : A} {r : Nat}
    (hp : Product alg c) (e : assign n lists c a r = some c') : Product alg c' := by
  unfold assign at e
  split at e
  · injection e with e
    subst e
    unfold setAttr
    split
    · cases hf : c.flag
      · simpa [hf, Product] using hp
      · intro h; simp [hf] at h
    · intro h; simp at h
  · cases e

theorem product_total {alg : Alg A α F M H} {t : Nat} {c : Cpl A α F M H} (hp : Product alg c) : Product alg (total alg t c).2 := by
  unfold total
  split
  · exact hp
  · rename_i w hw
    split
    · unfold freeMatrix
      cases hm : c.mat with
      | some m =>
        intro _ h m' eh em
        simp only at eh em
        rw [hm] at em
        injection eh with eh; injection em with em
        exact ⟨w, hw, by rw [← eh, em]⟩
      | none =>
        cases hb : alg.build t c.subs with
        | none => simp only; exact hp
        | some m =>
          intro _ h m' eh em
          simp only at eh em
          injection eh with eh; injection em with em
          exact ⟨w, hw, by rw [← eh, em]⟩
    · exact hp

theorem product_exec (alg : Alg A α F M H) (cs : List (Cmd A α F)) : ∀ st : St A α F M H, (∀ t, Product alg (st.cpl t)) →
    ∀ t, Product alg ((exec alg st cs).cpl t) := by
  induction cs with
  | nil => intro st h; exact h
  | cons c cs ih =>
    intro st h
    refine ih _ ?_
    intro t
    cases c with
    | change r l => exact h t
    | assign t' a r =>
      simp only [step]
      split
      · exact h t
      · rename_i c' e
        by_cases ht : t = t'
        · subst ht; simp only [upd_same]; exact product_assign (h t) e
        · simp only [upd_other _ _ ht]; exact h t
    | freq t' w =>
      simp only [step]
      by_cases ht : t = t'
      · subst ht
        simp only [upd_same, setFreq]
        split
        · exact h t
        · intro hf; simp at hf
      · simp only [upd_other _ _ ht]; exact h t
    | total t' =>
      simp only [step]
      by_cases ht : t = t'
      · subst ht; simp only [upd_same]; exact product_total (h t)
      · simp only [upd_other _ _ ht]; exact h t
    | delete t' =>
      simp only [step]
      by_cases ht : t = t'
      · subst ht
        simp only [upd_same]
        intro _ _ _ _ hm
        simp at hm
      · simp only [upd_other _ _ ht]; exact h t

theorem product_new (alg : Alg A α F M H) (lists : Nat → List α) (t : Nat) : Product alg ((St.new alg lists).cpl t) := by
  intro hf; simp [St.new, Cpl.new] at hf

theorem fresh_assign {alg : Alg A α F M H} {n t : Nat} {lists : Nat → List α} {c c' : Cpl A α F M H} {a : A} {r : Nat}
    (hp : Fresh alg lists t c) (e : assign n lists c a r = some c') : Fresh alg lists t c' := by
  unfold assign at e
  split at e
  · injection e with e
    subst e
    unfold setAttr
    split
    · rename_i hs
      have hs : (c.held a).map lists = some (lists r) := hs
      have hsub : upd c.subs a (lists r) = c.subs := by
        have := hp.2 a
        cases hh : c.held a with
        | none => rw [hh] at hs; cases hs
        | some r0 =>
          rw [hh] at hs this
          injection hs with hs
          have this : c.subs a = lists r0 := this
          rw [← hs, ← this, upd_id]
      rw [hsub]
      cases hf : c.flag
      · simp only [hf, Bool.false_eq_true, if_false]
        exact ⟨hp.1, hp.2⟩
      · refine ⟨fun m hm => ?_, fun a => ?_⟩
        · simp [hf] at hm
        · simpa [hf] using hp.2 a
    · refine ⟨fun m hm => ?_, fun b => ?_⟩
      · simp at hm
      · by_cases hb : b = a
        · subst hb; simp [upd_same]
        · simpa [upd_other _ _ hb] using hp.2 b
  · cases e

theorem fresh_total {alg : Alg A α F M H} {lists : Nat → List α} {t : Nat} {c : Cpl A α F M H} (hp : Fresh alg lists t c) :
    Fresh alg lists t (total alg t c).2 := by
  unfold total
  split
  · exact hp
  · split
    · unfold freeMatrix
      cases hm : c.mat with
      | some m => exact ⟨fun m' hm' => hp.1 m' hm', hp.2⟩
      | none =>
        cases hb : alg.build t c.subs with
        | none => exact hp
        | some m => exact ⟨fun m' hm' => by simp only at hm'; rw [← hm']; exact hb, hp.2⟩
    · exact hp

theorem fresh_exec (alg : Alg A α F M H) (cs : List (Cmd A α F)) : ∀ st : St A α F M H, Careful alg st cs →
    (∀ t, Fresh alg st.lists t (st.cpl t)) → ∀ t, Fresh alg (exec alg st cs).lists t ((exec alg st cs).cpl t) := by
  induction cs with
  | nil => intro st _ h; exact h
  | cons c cs ih =>
    intro st hc h
    refine ih _ hc.2 ?_
    intro t
    cases c with
    | change r l =>
      refine ⟨(h t).1, fun a => ?_⟩
      have hr : (st.cpl t).held a ≠ some r := hc.1 t a
      have := (h t).2 a
      show (st.cpl t).subs a = _
      rw [this]
      show _ = match (st.cpl t).held a with
        | none => alg.init t a
        | some r' => upd st.lists r l r'
      cases hh : (st.cpl t).held a with
      | none => rfl
      | some r' =>
        have : r' ≠ r := fun e => hr (by rw [hh, e])
        simp only [upd_other _ _ this]
    | assign t' a r =>
      simp only [step]
      split
      · exact h t
      · rename_i c' e
        by_cases ht : t = t'
        · subst ht; simp only [upd_same]; exact fresh_assign (h t) e
        · simp only [upd_other _ _ ht]; exact h t
    | freq t' w =>
      simp only [step]
      by_cases ht : t = t'
      · subst ht
        simp only [upd_same, setFreq]
        split
        · exact h t
        · exact h t
      · simp only [upd_other _ _ ht]; exact h t
    | total t' =>
      simp only [step]
      by_cases ht : t = t'
      · subst ht; simp only [upd_same]; exact fresh_total (h t)
      · simp only [upd_other _ _ ht]; exact h t
    | delete t' =>
      simp only [step]
      by_cases ht : t = t'
      · subst ht
        simp only [upd_same]
        exact ⟨fun m hm => by simp at hm, (h t).2⟩
      · simp only [upd_other _ _ ht]; exact h t

theorem fresh_new (alg : Alg A α F M H) (lists : Nat → List α) (t : Nat) :
    Fresh alg (St.new alg lists).lists t ((St.new alg lists).cpl t) :=
  ⟨fun m hm => by simp [St.new, Cpl.new] at hm, fun _ => rfl⟩

/-- Reading in terms of the stored matrix. -/
theorem total_value {alg : Alg A α F M H} {t : Nat} {c : Cpl A α F M H} (hp : Product alg c) :
    (total alg t c).1 = c.freq.bind fun w => (match c.mat with | some m => some m | none => alg.build t c.subs).map (alg.smul w) := by
  unfold total
  cases hw : c.freq with
  | none => rfl
  | some w =>
    simp only
    split
    · unfold freeMatrix
      cases hm : c.mat with
      | some m => simp
      | none => cases hb : alg.build t c.subs <;> simp
    · rename_i hn
      simp only [Bool.or_eq_true, not_or, Bool.not_eq_true] at hn
      obtain ⟨⟨hh, hf⟩, hm⟩ := hn
      cases hm' : c.mat with
      | none => rw [hm'] at hm; simp at hm
      | some m =>
        cases hh' : c.ham with
        | none => rw [hh'] at hh; simp at hh
        | some h =>
          obtain ⟨w', e1, e2⟩ := hp hf h m hh' hm'
          rw [hw] at e1; injection e1 with e1
          subst e1
          simp [e2]

/-! ## Properties -/

/-- **C95** (partial: careful programs only).  As long as no list is changed while a coupling holds it, `totalHamiltonian` of every coupling is
the frequency times the matrix of the operators and orders the coupling shows.  Missing: programs that change such a list, for which it is
false (below). -/
theorem C95_current_partial (alg : Alg A α F M H) (lists : Nat → List α) (cs : List (Cmd A α F)) (h : Careful alg (St.new alg lists) cs)
    (t : Nat) : let st := exec alg (St.new alg lists) cs
    (total alg t (st.cpl t)).1 = (st.cpl t).freq.bind fun w => (alg.build t (shown alg st t)).map (alg.smul w) := by
  intro st
  have hp := product_exec alg cs _ (product_new alg lists) t
  have hf := fresh_exec alg cs _ h (fresh_new alg lists) t
  rw [total_value hp]
  have hs : (st.cpl t).subs = shown alg st t := by
    funext a; exact hf.2 a
  rw [← hs]
  cases hw : (st.cpl t).freq with
  | none => rfl
  | some w =>
    simp only [Option.bind_some]
    congr 1
    cases hm : (st.cpl t).mat with
    | none => rfl
    | some m => exact (hf.1 m hm).symm

/-- The lists a program changes in place. -/
def changed : List (Cmd A α F) → List Nat
  | [] => []
  | .change r _ :: cs => r :: changed cs
  | _ :: cs => changed cs

/-- The lists a program assigns. -/
def assigned : List (Cmd A α F) → List Nat
  | [] => []
  | .assign _ _ r :: cs => r :: assigned cs
  | _ :: cs => assigned cs

theorem held_assign {n : Nat} {lists : Nat → List α} {c c' : Cpl A α F M H} {a : A} {r : Nat}
    (e : assign n lists c a r = some c') (b : A) (r' : Nat) (h : c'.held b = some r') : c.held b = some r' ∨ r' = r := by
  unfold assign at e
  split at e
  · injection e with e
    subst e
    unfold setAttr at h
    split at h
    · left; cases hf : c.flag <;> simpa [hf] using h
    · by_cases hb : b = a
      · subst hb; right; simp [upd_same] at h; exact h.symm
      · left; simpa [upd_other _ _ hb] using h
  · cases e

theorem held_total {alg : Alg A α F M H} {t : Nat} {c : Cpl A α F M H} : (total alg t c).2.held = c.held := by
  unfold total
  split
  · rfl
  · split
    · unfold freeMatrix
      cases c.mat with
      | some m => rfl
      | none => cases alg.build t c.subs <;> rfl
    · rfl

theorem careful_of_disjoint (alg : Alg A α F M H) (cs : List (Cmd A α F)) : ∀ st : St A α F M H,
    (∀ r ∈ changed cs, r ∉ assigned cs) → (∀ t a r, (st.cpl t).held a = some r → r ∉ changed cs) → Careful alg st cs := by
  induction cs with
  | nil => intro _ _ _; trivial
  | cons c cs ih =>
    intro st hd hh
    cases c with
    | change r l =>
      refine ⟨fun t a e => hh t a r e (by simp [changed]), ih _ (fun r' hr' => ?_) (fun t a r' e hr' => ?_)⟩
      · exact fun h => hd r' (by simp [changed, hr']) h
      · exact hh t a r' e (by simp [changed, hr'])
    | assign t' a' r =>
      refine ⟨trivial, ih _ (fun r' hr' h => hd r' hr' (by simp [assigned, h])) (fun t a r' e hr' => ?_)⟩
      simp only [step] at e
      split at e
      · exact hh t a r' e hr'
      · rename_i c' e'
        by_cases ht : t = t'
        · subst ht
          simp only [upd_same] at e
          rcases held_assign e' a r' e with h | h
          · exact hh t a r' h hr'
          · exact hd r' hr' (by simp [assigned, h])
        · simp only [upd_other _ _ ht] at e; exact hh t a r' e hr'
    | freq t' w =>
      refine ⟨trivial, ih _ (fun r' hr' h => hd r' hr' h) (fun t a r' e hr' => ?_)⟩
      refine hh t a r' ?_ hr'
      simp only [step] at e
      by_cases ht : t = t'
      · subst ht
        simp only [upd_same, setFreq] at e
        split at e <;> exact e
      · simpa only [upd_other _ _ ht] using e
    | total t' =>
      refine ⟨trivial, ih _ (fun r' hr' h => hd r' hr' h) (fun t a r' e hr' => ?_)⟩
      refine hh t a r' ?_ hr'
      simp only [step] at e
      by_cases ht : t = t'
      · subst ht; simpa only [upd_same, held_total] using e
      · simpa only [upd_other _ _ ht] using e
    | delete t' =>
      refine ⟨trivial, ih _ (fun r' hr' h => hd r' hr' h) (fun t a r' e hr' => ?_)⟩
      refine hh t a r' ?_ hr'
      simp only [step] at e
      by_cases ht : t = t'
      · subst ht; simpa only [upd_same] using e
      · simpa only [upd_other _ _ ht] using e

/-- **C95** (advice).  A program that never assigns a list it changes - for instance because it assigns copies, or tuples - gets what the
couplings show. -/
theorem C95_copies (alg : Alg A α F M H) (lists : Nat → List α) (cs : List (Cmd A α F)) (h : ∀ r ∈ changed cs, r ∉ assigned cs)
    (t : Nat) : let st := exec alg (St.new alg lists) cs
    (total alg t (st.cpl t)).1 = (st.cpl t).freq.bind fun w => (alg.build t (shown alg st t)).map (alg.smul w) :=
  C95_current_partial alg lists cs (careful_of_disjoint alg cs _ h fun _ _ _ e => by simp [St.new, Cpl.new] at e) t

/-- **C95** (all programs).  Assigning a list of the right length is noticed exactly if the coupling is marked already, or the list held so far
has another content now.  If it is noticed, the next Hamiltonian is made from the values of the sub-terms, which are the assigned ones;
otherwise it is what it was before the assignment. -/
theorem C95_noticed (alg : Alg A α F M H) (lists : Nat → List α) (cs : List (Cmd A α F)) (t : Nat) (a : A) (r : Nat) :
    let st := exec alg (St.new alg lists) cs
    let st' := step alg st (.assign t a r)
    (st.lists r).length = alg.size t →
    (st'.cpl t).subs = upd (st.cpl t).subs a (st.lists r) ∧ shown alg st' t a = st.lists r ∧
    ((st.cpl t).flag = true ∨ ((st.cpl t).held a).map st.lists ≠ some (st.lists r) →
      (total alg t (st'.cpl t)).1 = (st.cpl t).freq.bind fun w => (alg.build t (upd (st.cpl t).subs a (st.lists r))).map (alg.smul w)) ∧
    ((st.cpl t).flag = false → ((st.cpl t).held a).map st.lists = some (st.lists r) → (st.cpl t).mat ≠ none →
      (total alg t (st'.cpl t)).1 = (total alg t (st.cpl t)).1) := by
  intro st st' hl
  have hp := product_exec alg cs _ (product_new alg lists) t
  have e0 : assign (alg.size t) st.lists (st.cpl t) a r =
      some (if (setAttr st.lists { st.cpl t with subs := upd (st.cpl t).subs a (st.lists r) } a r).flag then
        { setAttr st.lists { st.cpl t with subs := upd (st.cpl t).subs a (st.lists r) } a r with mat := none }
        else setAttr st.lists { st.cpl t with subs := upd (st.cpl t).subs a (st.lists r) } a r) := by
    unfold assign; rw [if_pos hl]
  obtain ⟨c', e1⟩ : ∃ c', assign (alg.size t) st.lists (st.cpl t) a r = some c' := ⟨_, e0⟩
  have e2 : st'.cpl t = c' := by
    show (step alg st (.assign t a r)).cpl t = c'
    simp only [step, e1, upd_same]
  have e3 : st'.lists = st.lists := by
    show (step alg st (.assign t a r)).lists = st.lists
    simp only [step, e1]
  have hp' : Product alg c' := product_assign hp e1
  rw [e1] at e0
  injection e0 with e0
  by_cases hs : ((st.cpl t).held a).map st.lists = some (st.lists r)
  · have e4 : setAttr st.lists { st.cpl t with subs := upd (st.cpl t).subs a (st.lists r) } a r =
        { st.cpl t with subs := upd (st.cpl t).subs a (st.lists r) } := by
      unfold setAttr; rw [if_pos hs]
    rw [e4] at e0
    refine ⟨?_, ?_, ?_, ?_⟩
    · rw [e2, e0]; split <;> rfl
    · unfold shown
      rw [e2, e3]
      have : c'.held a = (st.cpl t).held a := by rw [e0]; split <;> rfl
      rw [this]
      cases hh : (st.cpl t).held a with
      | none => rw [hh] at hs; cases hs
      | some r0 => rw [hh] at hs; injection hs with hs
    · intro h
      rcases h with h | h
      · rw [e2, total_value hp', e0]
        simp [h]
      · exact absurd hs h
    · intro hf _ hm
      have : c' = { st.cpl t with subs := upd (st.cpl t).subs a (st.lists r) } := by rw [e0]; simp [hf]
      rw [e2, total_value hp', total_value hp, this]
      cases hm' : (st.cpl t).mat with
      | none => exact absurd hm' hm
      | some m => rfl
  · have e4 : setAttr st.lists { st.cpl t with subs := upd (st.cpl t).subs a (st.lists r) } a r =
        { st.cpl t with subs := upd (st.cpl t).subs a (st.lists r), held := upd (st.cpl t).held a (some r), flag := true } := by
      unfold setAttr; rw [if_neg hs]
    rw [e4] at e0
    simp only [if_true] at e0
    refine ⟨by rw [e2, e0], ?_, ?_, fun _ h => absurd h hs⟩
    · unfold shown; rw [e2, e3, e0]; simp only [upd_same]
    · intro _
      rw [e2, total_value hp', e0]

/-- **C95** fails: a list that is changed in place and assigned again - itself or a copy of it - is shown and reaches the sub-terms, but the
Hamiltonian is still the one of the old values. -/
theorem C95_stale (alg : Alg A α F M H) (lists : Nat → List α) (cs : List (Cmd A α F)) (t : Nat) (a : A) (r : Nat) (l : List α) (w : F) :
    let st := exec alg (St.new alg lists) cs
    let old := exec alg st [.total t]
    ∀ (r' : Nat), (st.cpl t).held a = some r → l.length = alg.size t → (st.cpl t).freq = some w → (total alg t (st.cpl t)).1 ≠ none →
    (r' = r ∨ st.lists r' = l) →
    let new := exec alg st [.total t, .change r l, .assign t a r']
    shown alg new t a = l ∧ (new.cpl t).subs a = l ∧ (total alg t (new.cpl t)).1 = (total alg t (old.cpl t)).1 ∧
      (total alg t (old.cpl t)).1 = (total alg t (st.cpl t)).1 := by
  intro st old r' hh hl hw hok hr new
  have hold : old = exec alg (St.new alg lists) (cs ++ [.total t]) := (exec_append alg cs _ _).symm
  let mid := exec alg st [.total t, .change r l]
  have hmid : mid = exec alg (St.new alg lists) (cs ++ [.total t, .change r l]) := (exec_append alg cs _ _).symm
  have hp := product_exec alg cs _ (product_new alg lists) t
  have hc : mid.cpl t = (total alg t (st.cpl t)).2 := by
    show upd st.cpl t (total alg t (st.cpl t)).2 t = _
    exact upd_same _ _ _
  have hco : old.cpl t = (total alg t (st.cpl t)).2 := by
    show upd st.cpl t (total alg t (st.cpl t)).2 t = _
    exact upd_same _ _ _
  have hml : mid.lists = upd st.lists r l := rfl
  have hlr : mid.lists r' = l := by
    rw [hml]
    by_cases e : r' = r
    · rw [e, upd_same]
    · rw [upd_other _ _ e]; exact hr.resolve_left e
  -- the state after a successful reading
  have hread : ((total alg t (st.cpl t)).2).flag = false ∧ ((total alg t (st.cpl t)).2).mat ≠ none ∧
      ((total alg t (st.cpl t)).2).freq = some w := by
    have hw' : (st.cpl t).freq = some w := hw
    have hok' := hok
    unfold total at hok' ⊢
    rw [hw'] at hok' ⊢
    simp only at hok' ⊢
    split at hok'
    · rename_i hcnd
      rw [if_pos hcnd]
      unfold freeMatrix at hok' ⊢
      cases hm : (st.cpl t).mat with
      | some m => rw [hm] at hok'; exact ⟨rfl, by simp [hm], hw'⟩
      | none =>
        rw [hm] at hok'
        cases hb : alg.build t (st.cpl t).subs with
        | none => rw [hb] at hok'; exact absurd rfl hok'
        | some m => exact ⟨rfl, by simp, hw'⟩
    · rename_i hcnd
      rw [if_neg hcnd]
      simp only [Bool.or_eq_true, not_or, Bool.not_eq_true] at hcnd
      refine ⟨hcnd.1.2, ?_, hw'⟩
      intro h; rw [h] at hcnd; simp at hcnd
  have hn := C95_noticed alg lists (cs ++ [.total t, .change r l]) t a r'
  rw [← hmid] at hn
  obtain ⟨n1, n2, _, n4⟩ := hn (by rw [hlr]; exact hl)
  have hnew : new = step alg mid (.assign t a r') := rfl
  refine ⟨?_, ?_, ?_, ?_⟩
  · rw [hnew, n2, hlr]
  · rw [hnew, n1, hlr, upd_same]
  · rw [hnew, n4 (by rw [hc]; exact hread.1) ?_ (by rw [hc]; exact hread.2.1), hc, hco]
    rw [hc, held_total, hh, hlr]
    show some (mid.lists r) = some l
    rw [hml, upd_same]
  · rw [hco, total_value (product_total hp)]
    have : (total alg t (st.cpl t)).1 = ((total alg t (st.cpl t)).2).ham := by
      have hw' : (st.cpl t).freq = some w := hw
      have hok' := hok
      unfold total at hok' ⊢
      rw [hw'] at hok' ⊢
      simp only at hok' ⊢
      split at hok'
      · rename_i hcnd
        rw [if_pos hcnd]
        unfold freeMatrix at hok' ⊢
        cases hm : (st.cpl t).mat with
        | some m => rfl
        | none =>
          rw [hm] at hok'
          cases hb : alg.build t (st.cpl t).subs with
          | none => rw [hb] at hok'; exact absurd rfl hok'
          | some m => rfl
      · rename_i hcnd
        rw [if_neg hcnd]
    have hv := total_value (t := t) (product_total (t := t) hp)
    cases hm : ((total alg t (st.cpl t)).2).mat with
    | none => exact absurd hm hread.2.1
    | some m =>
      cases hh' : ((total alg t (st.cpl t)).2).ham with
      | none => rw [hh'] at this; exact absurd this hok
      | some h =>
        obtain ⟨w', x1, x2⟩ := product_total (t := t) hp hread.1 h m hh' hm
        rw [this, hh', x1]
        simp [x2]

/-- **C95** (repair).  After `delMatrices` the Hamiltonian is made from the values of the sub-terms again. -/
theorem C95_delete (alg : Alg A α F M H) (lists : Nat → List α) (cs : List (Cmd A α F)) (t : Nat) :
    let st := exec alg (St.new alg lists) (cs ++ [.delete t])
    (total alg t (st.cpl t)).1 = (st.cpl t).freq.bind fun w => (alg.build t (st.cpl t).subs).map (alg.smul w) := by
  intro st
  rw [total_value (product_exec alg _ _ (product_new alg lists) t)]
  have : (st.cpl t).mat = none := by
    show ((exec alg (St.new alg lists) (cs ++ [.delete t])).cpl t).mat = none
    rw [exec_append]
    simp [exec, step, upd_same]
  show _ = (st.cpl t).freq.bind _
  rw [show (exec alg (St.new alg lists) (cs ++ [.delete t])) = st from rfl, this]

/-- **C95** (frequencies).  The frequency is the one assigned last; nothing else assigns it. -/
theorem C95_frequency (alg : Alg A α F M H) (st : St A α F M H) (c : Cmd A α F) (t : Nat) :
    ((step alg st c).cpl t).freq = match c with
      | .freq t' w => if t = t' then w else (st.cpl t).freq
      | _ => (st.cpl t).freq := by
  cases c with
  | change r l => rfl
  | assign t' a r =>
    simp only [step]
    split
    · rfl
    · rename_i c' e
      by_cases ht : t = t'
      · subst ht
        simp only [upd_same]
        unfold assign at e
        split at e
        · injection e with e
          subst e
          unfold setAttr
          split
          · cases hf : (st.cpl t).flag <;> simp [hf]
          · rfl
        · cases e
      · simp only [upd_other _ _ ht]
  | freq t' w =>
    by_cases ht : t = t'
    · subst ht
      simp only [step, upd_same, setFreq, if_true]
      split
      · rename_i h; exact h.symm
      · rfl
    · simp only [step, upd_other _ _ ht, if_neg ht]
  | total t' =>
    by_cases ht : t = t'
    · subst ht
      simp only [step, upd_same]
      unfold total
      split
      · rfl
      · split
        · unfold freeMatrix
          cases (st.cpl t).mat with
          | some m => rfl
          | none => cases alg.build t (st.cpl t).subs <;> rfl
        · rfl
    · simp only [step, upd_other _ _ ht]
  | delete t' =>
    by_cases ht : t = t'
    · subst ht; simp only [step, upd_same]
    · simp only [step, upd_other _ _ ht]

/-- Changing a list in place is no assignment: nothing but what is shown changes, for all couplings holding the list. -/
theorem C95_change_only_shows (alg : Alg A α F M H) (st : St A α F M H) (r : Nat) (l : List α) (t : Nat) :
    (step alg st (.change r l)).cpl t = st.cpl t ∧
    ∀ a, shown alg (step alg st (.change r l)) t a = if (st.cpl t).held a = some r then l else shown alg st t a := by
  refine ⟨rfl, fun a => ?_⟩
  unfold shown
  show (match (st.cpl t).held a with
    | none => alg.init t a
    | some r' => upd st.lists r l r') = _
  cases hh : (st.cpl t).held a with
  | none => simp
  | some r' =>
    by_cases e : r' = r
    · simp [e, upd_same]
    · simp [e, upd_other _ _ e]

/-! ## A concrete coupling: two systems, numbers for operators and orders, the matrix is the list of the values -/

/-- Two attributes (`false`: operators, `true`: orders); an operator 0 means that none was given yet. -/
def demo : Alg Bool Nat Nat (List Nat × List Nat) (Nat × List Nat × List Nat) where
  size _ := 2
  init _ a := if a then [1, 1] else [0, 0]
  build _ v := if (v false).contains 0 then none else some (v false, v true)
  smul w m := (w, m)

/-- List objects 0, 1, 2. -/
def objects : Nat → List Nat
  | 0 => [5, 5]
  | 1 => [7, 5]
  | _ => [1, 2]

/-- What a program leaves: the values shown, and the Hamiltonian read. -/
def outcome (cs : List (Cmd Bool Nat Nat)) (t : Nat) : List Nat × List Nat × Option (Nat × List Nat × List Nat) :=
  let st := exec demo (St.new demo objects) cs
  (shown demo st t false, shown demo st t true, (total demo t (st.cpl t)).1)

/-- `operator = l0`, `order = l2`, `frequency = 3`: everything is current, also after another list is assigned. -/
example : outcome [.assign 0 false 0, .assign 0 true 2, .freq 0 (some 3), .total 0] 0 = ([5, 5], [1, 2], some (3, [5, 5], [1, 2])) ∧
    outcome [.assign 0 false 0, .assign 0 true 2, .freq 0 (some 3), .total 0, .assign 0 false 1] 0 =
      ([7, 5], [1, 2], some (3, [7, 5], [1, 2])) := by
  constructor <;> decide +kernel

/-- **C95** fails: `l0[0] = 7; operator = l0` and also `l0[0] = 7; operator = [7, 5]` keep the matrix of `[5, 5]`. -/
theorem C95_stale_witness :
    outcome [.assign 0 false 0, .freq 0 (some 3), .total 0, .change 0 [7, 5], .assign 0 false 0] 0 =
      ([7, 5], [1, 1], some (3, [5, 5], [1, 1])) ∧
    outcome [.assign 0 false 0, .freq 0 (some 3), .total 0, .change 0 [7, 5], .assign 0 false 1] 0 =
      ([7, 5], [1, 1], some (3, [5, 5], [1, 1])) := by
  constructor <;> decide +kernel

/-- Assigning the frequency in between marks the coupling, and the new operators are used. -/
example : outcome [.assign 0 false 0, .freq 0 (some 3), .total 0, .change 0 [7, 5], .freq 0 (some 4), .assign 0 false 0] 0 =
    ([7, 5], [1, 1], some (4, [7, 5], [1, 1])) := by decide +kernel

/-- `delMatrices` helps, too. -/
example : outcome ([.assign 0 false 0, .freq 0 (some 3), .total 0, .change 0 [7, 5], .assign 0 false 0] ++ [.delete 0]) 0 =
    ([7, 5], [1, 1], some (3, [7, 5], [1, 1])) := by decide +kernel

/-- Two couplings with the same list: both show the new values, both have the old matrix. -/
example : outcome [.assign 0 false 0, .assign 1 false 0, .freq 0 (some 3), .freq 1 (some 3), .total 0, .total 1, .change 0 [7, 5]] 1 =
    ([7, 5], [1, 1], some (3, [5, 5], [1, 1])) := by decide +kernel

/-- `C95_copies` applies to a program that changes the lists 0 and 2 but assigns list 1. -/
example : ∀ r ∈ changed ([.change 0 [8, 8], .assign 0 false 1, .freq 0 (some 3), .total 0, .change 2 [2, 2]] : List (Cmd Bool Nat Nat)),
    r ∉ assigned ([.change 0 [8, 8], .assign 0 false 1, .freq 0 (some 3), .total 0, .change 2 [2, 2]] : List (Cmd Bool Nat Nat)) := by
  decide +kernel

end Verif.Term.Shared
