import Mathlib.Tactic.Common
import Mathlib.Data.List.Basic

/-!
# C92: the first term of a system

`frequency`, `operator` and `order` of a system are those of its first term, which is stored beside the dictionary of terms
(`classes/QSystem.py:588-702`).  Simplifications: one system; terms are numbers, with frequency, operator and order as data; a removed term is
looked for in this system only; checks of values are C90 and C91, stored matrices C67.
-/
namespace Verif.Term.First

/-- The data of a term: frequency, operator (`None` at first), order. -/
structure Data (W Op : Type) where
  freq : Option W
  oper : Option Op
  order : Int
deriving DecidableEq, Repr

/-- The system: the dictionary `__terms`, `__firstTerm`, the data of all terms there are, and the number of the next new term. -/
structure St (W Op : Type) where
  terms : List Nat
  first : Option Nat
  data : Nat → Data W Op
  next : Nat

variable {W Op : Type}

/-- A new system with a new `QTerm` not yet existing. -/
def St.new (W Op : Type) : St W Op := ⟨[], none, fun _ => ⟨none, none, 1⟩, 0⟩

/-- `addTerms(trm)` (`QSystem.py:598-613`). -/
def addTerm (st : St W Op) (t : Nat) : St W Op :=
  { st with first := if st.terms.length = 0 then some t else st.first, terms := if t ∈ st.terms then st.terms else st.terms ++ [t] }

/-- A new term with the given data. -/
def newTerm (st : St W Op) (d : Data W Op) : St W Op × Nat :=
  ({ st with data := fun x => if x = st.next then d else st.data x, next := st.next + 1 }, st.next)

/-- `_firstTerm` (`QSystem.py:662-669`): made if there is none. -/
def firstTerm (st : St W Op) : St W Op × Nat :=
  match st.first with
  | some t => (st, t)
  | none =>
    let (st, t) := newTerm st ⟨none, none, 1⟩
    let st := addTerm st t
    (st, st.first.getD t)

/-- Changing the data of a term. -/
def change (st : St W Op) (t : Nat) (f : Data W Op → Data W Op) : St W Op :=
  { st with data := fun x => if x = t then f (st.data x) else st.data x }

/-- What the user does: `createTerm` (`:548-586`), `addTerms`, `removeTerm` (`:615-649`), `resetTerms` (`:651-655`), `terms = …` (`:657-660`),
assigning (`:678-702`) and reading `frequency` (`:671-676`). -/
inductive Cmd (W Op : Type)
  | create (d : Data W Op)
  | add (t : Nat)
  | remove (t : Nat)
  | reset
  | terms (ts : List Nat)
  | frequency (w : Option W)
  | operator (o : Option Op)
  | order (r : Int)
  | read

/-- One command. -/
def exec (st : St W Op) : Cmd W Op → St W Op
  | .create d => match newTerm st d with | (st, t) => addTerm st t
  | .add t => addTerm st t
  | .remove t => { st with terms := st.terms.erase t }
  | .reset => { st with terms := [] }
  | .terms ts => ts.foldl addTerm { st with terms := [] }
  | .frequency w => match firstTerm st with | (st, t) => change st t fun d => { d with freq := w }
  | .operator o => match firstTerm st with | (st, t) => change st t fun d => { d with oper := o }
  | .order r => match firstTerm st with | (st, t) => change st t fun d => { d with order := r }
  | .read => (firstTerm st).1

/-- What the getter `frequency` returns. -/
def readFrequency (st : St W Op) : Option W := match firstTerm st with | (st, t) => (st.data t).freq

/-- The terms of the Hamiltonian, `_termHamiltonian` (`QSystem.py:210-215`): the sum is over the terms with an operator. -/
def ham (st : St W Op) : List (Data W Op) := (st.terms.map st.data).filter fun d => d.oper.isSome

/-! ### Specification -/

/-- The program never takes away the first term and leaves the system with that: it is not removed, and terms are not reset or replaced by none. -/
def KeepsFirst : St W Op → List (Cmd W Op) → Prop
  | _, [] => True
  | st, c :: cs => (match c with
      | .remove t => st.terms.head? ≠ some t
      | .reset => st.terms = []
      | .terms ts => ts ≠ [] ∨ st.terms = []
      | _ => True) ∧ KeepsFirst (exec st c) cs

/-- Only terms that there are are added. -/
def Exist : St W Op → List (Cmd W Op) → Prop
  | _, [] => True
  | st, c :: cs => (match c with
      | .add t => t < st.next
      | .terms ts => ∀ t ∈ ts, t < st.next
      | _ => True) ∧ Exist (exec st c) cs

/-! ### Lemmas -/

/-- The stored first term is the first one of the dictionary. -/
def Ok (st : St W Op) : Prop := st.first = st.terms.head? ∧ st.terms.Nodup

theorem ok_add (st : St W Op) (h : Ok st) (t : Nat) : Ok (addTerm st t) := by
  obtain ⟨h1, h2⟩ := h
  obtain ⟨terms, first, data, next⟩ := st
  dsimp only at h1 h2
  unfold addTerm Ok
  cases terms with
  | nil => simp
  | cons a l =>
    dsimp only
    by_cases hm : t ∈ a :: l
    · rw [if_pos hm, if_neg (by simp)]; exact ⟨h1, h2⟩
    · rw [if_neg hm, if_neg (by simp)]
      refine ⟨h1, ?_⟩
      rw [List.nodup_append]
      exact ⟨h2, by simp, fun x hx y hy => by rw [List.mem_singleton] at hy; subst hy; exact fun e => hm (e ▸ hx)⟩

theorem nodup_add (st : St W Op) (h : st.terms.Nodup) (t : Nat) : (addTerm st t).terms.Nodup := by
  unfold addTerm
  dsimp only
  by_cases hm : t ∈ st.terms
  · rw [if_pos hm]; exact h
  · rw [if_neg hm, List.nodup_append]
    exact ⟨h, by simp, fun x hx y hy => by rw [List.mem_singleton] at hy; subst hy; exact fun e => hm (e ▸ hx)⟩

theorem ok_adds (ts : List Nat) (st : St W Op) (h : Ok st) : Ok (ts.foldl addTerm st) := by
  induction ts generalizing st with
  | nil => exact h
  | cons t ts ih => exact ih _ (ok_add st h t)

theorem ok_terms (ts : List Nat) (st : St W Op) (h : ts ≠ []) : Ok (ts.foldl addTerm { st with terms := [] }) := by
  cases ts with
  | nil => exact absurd rfl h
  | cons t ts =>
    have h1 : Ok (addTerm { st with terms := [] } t) := by simp [addTerm, Ok]
    exact ok_adds ts _ h1

theorem ok_new (st : St W Op) (h : Ok st) (d : Data W Op) : Ok (newTerm st d).1 := h

theorem firstTerm_some (st : St W Op) (t : Nat) (h : st.first = some t) : firstTerm st = (st, t) := by
  unfold firstTerm; rw [h]

theorem exec_frequency (st : St W Op) (t : Nat) (w : Option W) (h : st.first = some t) :
    exec st (.frequency w) = change st t fun d => { d with freq := w } := by
  rw [exec, firstTerm_some st t h]

theorem exec_operator (st : St W Op) (t : Nat) (o : Option Op) (h : st.first = some t) :
    exec st (.operator o) = change st t fun d => { d with oper := o } := by
  rw [exec, firstTerm_some st t h]

theorem firstTerm_ok (st : St W Op) (h : Ok st) : Ok (firstTerm st).1 ∧ (firstTerm st).1.terms.head? = some (firstTerm st).2 := by
  unfold firstTerm
  cases hf : st.first with
  | some t => exact ⟨h, by rw [← h.1, hf]⟩
  | none =>
    have hn : st.terms = [] := by
      have := h.1; rw [hf] at this
      cases hl : st.terms with
      | nil => rfl
      | cons a l => rw [hl] at this; cases this
    dsimp only
    refine ⟨ok_add _ (ok_new st h _) _, ?_⟩
    simp [newTerm, addTerm, hn]

theorem ok_exec (st : St W Op) (h : Ok st) (c : Cmd W Op) (hc : match c with
      | .remove t => st.terms.head? ≠ some t
      | .reset => st.terms = []
      | .terms ts => ts ≠ [] ∨ st.terms = []
      | _ => True) : Ok (exec st c) := by
  cases c with
  | create d => exact ok_add _ (ok_new st h d) _
  | add t => exact ok_add st h t
  | remove t =>
    dsimp only at hc
    obtain ⟨h1, h2⟩ := h
    refine ⟨?_, h2.erase t⟩
    show st.first = (st.terms.erase t).head?
    rw [h1]
    cases hl : st.terms with
    | nil => rfl
    | cons a l =>
      rw [hl] at hc
      rw [List.erase_cons_tail (by simpa using fun e => hc (by rw [e]; rfl))]
      rfl
  | reset =>
    dsimp only at hc
    show Ok { st with terms := [] }
    rw [← hc]; exact h
  | terms ts =>
    dsimp only at hc
    show Ok (ts.foldl addTerm { st with terms := [] })
    cases ts with
    | nil =>
      rcases hc with hc | hc
      · exact absurd rfl hc
      · show Ok { st with terms := [] }
        rw [← hc]; exact h
    | cons t ts => exact ok_terms _ st (by simp)
  | frequency w => exact (firstTerm_ok st h).1
  | operator o => exact (firstTerm_ok st h).1
  | order r => exact (firstTerm_ok st h).1
  | read => exact (firstTerm_ok st h).1

theorem ok_run (cs : List (Cmd W Op)) : ∀ st : St W Op, Ok st → KeepsFirst st cs → Ok (cs.foldl exec st) := by
  induction cs with
  | nil => exact fun st h _ => h
  | cons c cs ih => exact fun st h hk => ih _ (ok_exec st h c hk.1) hk.2

theorem nodup_exec (st : St W Op) (h : st.terms.Nodup) (c : Cmd W Op) : (exec st c).terms.Nodup := by
  have hf : (firstTerm st).1.terms.Nodup := by
    unfold firstTerm
    cases st.first with
    | some t => exact h
    | none => exact nodup_add (newTerm st _).1 h _
  have ha : ∀ (ts : List Nat) (s : St W Op), s.terms.Nodup → (ts.foldl addTerm s).terms.Nodup := by
    intro ts
    induction ts with
    | nil => exact fun s hs => hs
    | cons t ts ih => exact fun s hs => ih _ (nodup_add s hs t)
  cases c with
  | create d => exact nodup_add (newTerm st d).1 h _
  | add t => exact nodup_add st h t
  | remove t => exact h.erase t
  | reset => exact List.nodup_nil
  | terms ts => exact ha ts _ List.nodup_nil
  | frequency w => exact hf
  | operator o => exact hf
  | order r => exact hf
  | read => exact hf

theorem nodup_run (cs : List (Cmd W Op)) : ∀ st : St W Op, st.terms.Nodup → (cs.foldl exec st).terms.Nodup := by
  induction cs with
  | nil => exact fun st h => h
  | cons c cs ih => exact fun st h => ih _ (nodup_exec st h c)

/-- Every term of the system exists. -/
def Bounded (st : St W Op) : Prop := ∀ t ∈ st.terms, t < st.next

theorem bounded_add (st : St W Op) (h : Bounded st) (t : Nat) (ht : t < st.next) : Bounded (addTerm st t) := by
  intro x hx
  show x < st.next
  have hx : x ∈ (if t ∈ st.terms then st.terms else st.terms ++ [t]) := hx
  by_cases hm : t ∈ st.terms
  · rw [if_pos hm] at hx; exact h x hx
  · rw [if_neg hm, List.mem_append, List.mem_singleton] at hx
    rcases hx with hx | rfl
    · exact h x hx
    · exact ht

theorem bounded_adds (ts : List Nat) : ∀ st : St W Op, Bounded st → (∀ t ∈ ts, t < st.next) → Bounded (ts.foldl addTerm st) := by
  induction ts with
  | nil => exact fun st h _ => h
  | cons t ts ih =>
    exact fun st h ht => ih _ (bounded_add st h t (ht t (by simp))) fun x hx => ht x (by simp [hx])

theorem bounded_create (st : St W Op) (h : Bounded st) (d : Data W Op) : Bounded (addTerm (newTerm st d).1 (newTerm st d).2) :=
  bounded_add (newTerm st d).1 (fun x hx => Nat.lt_succ_of_lt (h x hx)) _ (Nat.lt_succ_self _)

theorem bounded_firstTerm (st : St W Op) (h : Bounded st) : Bounded (firstTerm st).1 := by
  unfold firstTerm
  cases st.first with
  | some t => exact h
  | none => exact bounded_create st h _

theorem bounded_exec (st : St W Op) (h : Bounded st) (c : Cmd W Op) (hc : match c with
      | .add t => t < st.next
      | .terms ts => ∀ t ∈ ts, t < st.next
      | _ => True) : Bounded (exec st c) := by
  cases c with
  | create d => exact bounded_create st h d
  | add t => exact bounded_add st h t hc
  | remove t => exact fun x hx => h x (List.mem_of_mem_erase hx)
  | reset => exact fun x hx => absurd hx (by simp [exec])
  | terms ts => exact bounded_adds ts _ (fun x hx => absurd hx (by simp)) hc
  | frequency w => exact bounded_firstTerm st h
  | operator o => exact bounded_firstTerm st h
  | order r => exact bounded_firstTerm st h
  | read => exact bounded_firstTerm st h

theorem bounded_run (cs : List (Cmd W Op)) : ∀ st : St W Op, Bounded st → Exist st cs → Bounded (cs.foldl exec st) := by
  induction cs with
  | nil => exact fun st h _ => h
  | cons c cs ih => exact fun st h hk => ih _ (bounded_exec st h c hk.1) hk.2

/-! ### Statements -/

/-- After any program, `createTerm` adds one term behind the others, with the given data, and changes no other; the Hamiltonian gets this
term if it has an operator. -/
theorem C92_create (cs : List (Cmd W Op)) (he : Exist (St.new W Op) cs) (d : Data W Op) :
    let st := cs.foldl exec (St.new W Op)
    ∃ t, t ∉ st.terms ∧ (exec st (.create d)).terms = st.terms ++ [t] ∧ (exec st (.create d)).data t = d ∧
      (∀ x ∈ st.terms, (exec st (.create d)).data x = st.data x) ∧
      ham (exec st (.create d)) = ham st ++ if d.oper.isSome then [d] else [] := by
  intro st
  have h : Bounded st := bounded_run cs _ (fun x hx => absurd hx (by simp [St.new])) he
  have hn : st.next ∉ st.terms := fun hm => Nat.lt_irrefl _ (h _ hm)
  have h1 : (exec st (.create d)).terms = st.terms ++ [st.next] := by simp [exec, newTerm, addTerm, hn]
  have h2 : ∀ x ∈ st.terms, (exec st (.create d)).data x = st.data x := fun x hx => if_neg fun (e : x = st.next) => hn (e ▸ hx)
  have h3 : (exec st (.create d)).data st.next = d := if_pos rfl
  refine ⟨st.next, hn, h1, h3, h2, ?_⟩
  unfold ham
  rw [h1, List.map_append, List.filter_append, List.map_congr_left h2, List.map_singleton, h3]
  cases ho : d.oper <;> simp [ho]

/-- After any program, removing a term takes away this one and keeps the others in their order and with their data. -/
theorem C92_remove (cs : List (Cmd W Op)) (t : Nat) :
    let st := cs.foldl exec (St.new W Op)
    (exec st (.remove t)).terms = (st.terms.filter fun x => x ≠ t) ∧ (exec st (.remove t)).data = st.data := by
  intro st
  have h : st.terms.Nodup := nodup_run cs _ List.nodup_nil
  refine ⟨?_, rfl⟩
  show st.terms.erase t = _
  rw [h.erase_eq_filter]
  apply List.filter_congr
  intro x _
  by_cases hx : x = t <;> simp [hx]

/-- As long as the first term is not taken away, assigning `frequency`, `operator` or `order` changes this of the first term in `terms`, nothing
else of it, and no other term; if there are no terms, one is made.  The getter `frequency` returns the frequency of the first term.
Missing: programs that remove the first term or reset the terms, see `C92_removed` and `C92_reset`. -/
theorem C92_first_partial (cs : List (Cmd W Op)) (hk : KeepsFirst (St.new W Op) cs) :
    let st := cs.foldl exec (St.new W Op)
    ∃ t, (exec st .read).terms.head? = some t ∧
      (st.terms ≠ [] → st.terms.head? = some t) ∧ (st.terms = [] → t = st.next ∧ (exec st .read).data t = ⟨none, none, 1⟩) ∧
      readFrequency st = ((exec st .read).data t).freq ∧
      (∀ w, (exec st (.frequency w)).terms = (exec st .read).terms ∧ readFrequency (exec st (.frequency w)) = w ∧
        ∀ x, (exec st (.frequency w)).data x = if x = t then { (exec st .read).data t with freq := w } else (exec st .read).data x) ∧
      (∀ o, (exec st (.operator o)).terms = (exec st .read).terms ∧
        ∀ x, (exec st (.operator o)).data x = if x = t then { (exec st .read).data t with oper := o } else (exec st .read).data x) ∧
      ∀ r, (exec st (.order r)).terms = (exec st .read).terms ∧
        ∀ x, (exec st (.order r)).data x = if x = t then { (exec st .read).data t with order := r } else (exec st .read).data x := by
  intro st
  have h : Ok st := ok_run cs _ ⟨rfl, List.nodup_nil⟩ hk
  obtain ⟨h1, h2⟩ := firstTerm_ok st h
  have hff : ∀ d, firstTerm (change (firstTerm st).1 (firstTerm st).2 d) = (change (firstTerm st).1 (firstTerm st).2 d, (firstTerm st).2) := by
    exact fun d => firstTerm_some _ _ (h1.1.trans h2)
  refine ⟨(firstTerm st).2, h2, fun hne => ?_, fun he => ?_, rfl, fun w => ⟨rfl, ?_, fun x => ?_⟩, fun o => ⟨rfl, fun x => ?_⟩,
    fun r => ⟨rfl, fun x => ?_⟩⟩
  · have hf := h.1
    cases hl : st.terms with
    | nil => exact absurd hl hne
    | cons a l =>
      rw [hl] at hf
      have : firstTerm st = (st, a) := by unfold firstTerm; rw [hf]; rfl
      rw [this]; rfl
  · have hf := h.1
    rw [he] at hf
    have hf : st.first = none := hf
    simp only [exec]
    unfold firstTerm
    rw [hf]
    simp [newTerm, addTerm, he]
  · show readFrequency (change (firstTerm st).1 (firstTerm st).2 fun d => { d with freq := w }) = w
    unfold readFrequency
    rw [hff]
    simp [change]
  all_goals
    simp only [exec, change]
    by_cases hx : x = (firstTerm st).2
    · subst hx; simp
    · simp [hx]

/-- The Hamiltonian after an assignment of the frequency: the first term has it, if it has an operator.
Missing as in `C92_first_partial`. -/
theorem C92_hamiltonian_partial (cs : List (Cmd W Op)) (hk : KeepsFirst (St.new W Op) cs) (w : Option W) (t : Nat) (ts : List Nat) :
    let st := cs.foldl exec (St.new W Op)
    st.terms = t :: ts → ham (exec st (.frequency w)) =
      ([{ st.data t with freq := w }].filter fun d => d.oper.isSome) ++ (ts.map st.data).filter fun d => d.oper.isSome := by
  intro st hl
  have h : Ok st := ok_run cs _ ⟨rfl, List.nodup_nil⟩ hk
  have hf : firstTerm st = (st, t) := by unfold firstTerm; rw [h.1, hl]; rfl
  have hnd := h.2
  rw [hl, List.nodup_cons] at hnd
  unfold ham
  simp only [exec, hf, change, hl, List.map_cons, if_true]
  have : (ts.map fun x => if x = t then { st.data x with freq := w } else st.data x) = ts.map st.data :=
    List.map_congr_left fun x hx => if_neg fun (e : x = t) => hnd.1 (e ▸ hx)
  rw [this, ← List.filter_append]
  rfl

/-- After the first term was removed while others remain, assigning frequency, operator or order of the system changes none of its terms and not
its Hamiltonian, although `frequency` returns the assigned value. -/
theorem C92_removed (cs : List (Cmd W Op)) (hk : KeepsFirst (St.new W Op) cs) (t : Nat) :
    let st := cs.foldl exec (St.new W Op)
    st.terms.head? = some t →
      let st' := exec st (.remove t)
      st'.terms = st.terms.tail ∧
      (∀ w, ham (exec st' (.frequency w)) = ham st' ∧ readFrequency (exec st' (.frequency w)) = w) ∧
      (∀ o, ham (exec st' (.operator o)) = ham st') ∧ ∀ r, ham (exec st' (.order r)) = ham st' := by
  intro st ht st'
  have h : Ok st := ok_run cs _ ⟨rfl, List.nodup_nil⟩ hk
  have hf : st'.first = some t := h.1.trans ht
  have hff : firstTerm st' = (st', t) := by unfold firstTerm; rw [hf]
  have hnot : t ∉ st'.terms := fun hm => by
    have := h.2
    exact (List.Nodup.not_mem_erase this) hm
  have hch : ∀ f, ham (change st' t f) = ham st' := by
    intro f
    unfold ham change
    dsimp only
    have : (st'.terms.map fun x => if x = t then f (st'.data x) else st'.data x) = st'.terms.map st'.data :=
      List.map_congr_left fun x hx => if_neg fun (e : x = t) => hnot (e ▸ hx)
    rw [this]
  refine ⟨?_, fun w => ⟨?_, ?_⟩, fun o => ?_, fun r => ?_⟩
  · show st.terms.erase t = st.terms.tail
    cases hl : st.terms with
    | nil => rfl
    | cons a l => rw [hl] at ht; cases ht; simp
  · simp only [exec, hff]; exact hch _
  · have e : exec st' (.frequency w) = change st' t fun d => { d with freq := w } := by simp only [exec, hff]
    rw [e]
    have hf2 : (change st' t fun d => { d with freq := w }).first = some t := hf
    unfold readFrequency firstTerm
    rw [hf2]
    simp [change]
  · simp only [exec, hff]; exact hch _
  · simp only [exec, hff]; exact hch _

/-- After `resetTerms` of a system that had terms, `frequency` and `operator` can be assigned, but no term appears and there is no Hamiltonian; the
next term that is added becomes the first one. -/
theorem C92_reset (cs : List (Cmd W Op)) (hk : KeepsFirst (St.new W Op) cs) (w : Option W) (o : Option Op) (t : Nat) :
    let st := cs.foldl exec (St.new W Op)
    st.terms ≠ [] →
      (exec (exec (exec st .reset) (.frequency w)) (.operator o)).terms = [] ∧ ham (exec (exec (exec st .reset) (.frequency w)) (.operator o)) = [] ∧
      (exec (exec st .reset) (.add t)).first = some t ∧ (exec (exec st .reset) (.add t)).terms = [t] := by
  intro st hne
  have h : Ok st := ok_run cs _ ⟨rfl, List.nodup_nil⟩ hk
  obtain ⟨a, ha⟩ : ∃ a, st.first = some a := by
    cases hl : st.terms with
    | nil => exact absurd hl hne
    | cons a l => exact ⟨a, by rw [h.1, hl]; rfl⟩
  have h1 : exec (exec st .reset) (.frequency w) = change (exec st .reset) a fun d => { d with freq := w } := by
    exact exec_frequency _ a w ha
  have h2 : exec (exec (exec st .reset) (.frequency w)) (.operator o) =
      change (exec (exec st .reset) (.frequency w)) a fun d => { d with oper := o } := by
    exact exec_operator _ a o (by rw [h1]; exact ha)
  have h3 : (exec (exec (exec st .reset) (.frequency w)) (.operator o)).terms = [] := by rw [h2, h1]; rfl
  refine ⟨h3, ?_, ?_, ?_⟩
  · unfold ham; rw [h3]; rfl
  · simp [exec, addTerm]
  · simp [exec, addTerm]

/-- Reading `frequency` (or another of the three) of a system without terms adds a term to it; it has no operator and does not count. -/
theorem C92_read_adds : (exec (St.new W Op) .read).terms = [0] ∧ ham (exec (St.new W Op) .read) = [] ∧ readFrequency (St.new W Op) = none :=
  ⟨rfl, rfl, rfl⟩

/-- `terms = t` replaces the terms and the first term. -/
theorem C92_replace (st : St W Op) (t : Nat) : (exec st (.terms [t])).terms = [t] ∧ (exec st (.terms [t])).first = some t := by
  simp [exec, addTerm]

/-! ### Examples -/

/-- A qubit with a second term whose first term is removed. -/
abbrev prog : List (Cmd Nat String) := [.operator (some "Jz"), .frequency (some 3), .create ⟨some 5, some "Jx", 1⟩]

example : ham (prog.foldl exec (St.new Nat String)) = [⟨some 3, some "Jz", 1⟩, ⟨some 5, some "Jx", 1⟩] := by decide +kernel
example : ham ((prog ++ [Cmd.frequency (some 4)]).foldl exec (St.new Nat String)) = [⟨some 4, some "Jz", 1⟩, ⟨some 5, some "Jx", 1⟩] := by decide +kernel
example : ham ((prog ++ [Cmd.remove 0, Cmd.frequency (some 4)]).foldl exec (St.new Nat String)) = [⟨some 5, some "Jx", 1⟩] := by decide +kernel
example : KeepsFirst (St.new Nat String) (prog ++ [Cmd.remove 1, Cmd.terms [1, 0], Cmd.read]) := by
  simp [KeepsFirst, exec, firstTerm, newTerm, addTerm, change, St.new]

example : Exist (St.new Nat String) (prog ++ [Cmd.remove 0, Cmd.add 0]) := by
  simp [Exist, exec, firstTerm, newTerm, addTerm, change, St.new]
example : ((prog ++ [Cmd.remove 0, Cmd.add 0]).foldl exec (St.new Nat String)).terms = [1, 0] := by decide +kernel

end Verif.Term.First
