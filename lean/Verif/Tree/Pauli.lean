/-!
# C54: dimensions and Pauli operators

The Pauli operators have size two, so the dimension setter of a system (`QSystem.py:241-245, 252-254`) and the operator setter of a
term (`QTerms.py:157-190, 267-278`) refuse other dimensions.  Model of both tests.
Simplifications: an operator is represented by the one fact the tests ask for, whether it is one of the five Pauli functions; the terms
of the system itself and of the composites containing it are given as a list of lists, innermost first.
-/
namespace Verif.Tree.Pauli

/-- A term: its systems and, for each, whether the operator is a Pauli operator (`_isOperPauli`, `QTerms.py:260-265`). -/
abbrev Term := List (Nat × Bool)

/-- `_isCorrectPauliDim` with a given dimension (`QTerms.py:267-278`): whether it raises.  The given dimension is used for every system
of the term. -/
def raises (t : Term) (dim : Nat) : Bool := t.any fun o => o.2 && !(dim == 2 || dim == 1)

/-- `_hasConsistentDimensionTerm` (`QSystem.py:241-245`): `none` is the `ValueError`.  The test of a term returns `None`, which is
false, so `all` stops after the first term and the composites containing the system are not asked. -/
def consistent (dim : Nat) : List (List Term) → Option Bool
  | [] => some true
  | [] :: rest => consistent dim rest
  | (t :: _) :: _ => if raises t dim then none else some false

/-- Whether `system.dimension = dim` is accepted (`QSystem.py:247-254`) by the tests on the value. -/
def accepts (dim : Nat) (terms : List (List Term)) : Bool := dim ≠ 0 && (consistent dim terms).isSome

/-- Whether `term.operator = ...` is accepted (`QTerms.py:182-183`), given the dimensions of the systems. -/
def acceptsOperator (dims : Nat → Nat) (t : Term) : Bool := t.all fun o => !o.2 || (dims o.1 == 2 || dims o.1 == 1)

/-- What should be asked: no term contains a Pauli operator of this very system, unless the dimension is two (or one). -/
def fits (i dim : Nat) (terms : List (List Term)) : Prop :=
  ∀ ts ∈ terms, ∀ t ∈ ts, (i, true) ∈ t → dim = 2 ∨ dim = 1

theorem raises_eq_false (t : Term) (dim : Nat) : raises t dim = false ↔ ((∃ j, (j, true) ∈ t) → dim = 2 ∨ dim = 1) := by
  unfold raises
  rw [List.any_eq_false]
  constructor
  · rintro h ⟨j, hj⟩
    have := h _ hj
    simp at this
    omega
  · intro h o ho
    cases o with
    | mk j b =>
      cases b with
      | false => simp
      | true =>
        have := h ⟨j, ho⟩
        simp
        omega

/-- **C54**, exactly: a positive dimension is refused if and only if the first term of the innermost system that has any term contains a
Pauli operator (of whatever system), and the dimension is neither two nor one. -/
theorem C54_exact (dim : Nat) (h0 : dim ≠ 0) (terms : List (List Term)) :
    accepts dim terms = false ↔ ∃ pre t ts rest, terms = pre ++ (t :: ts) :: rest ∧ (∀ l ∈ pre, l = []) ∧
      (∃ j, (j, true) ∈ t) ∧ dim ≠ 2 ∧ dim ≠ 1 := by
  unfold accepts
  have e : (decide (dim ≠ 0) && (consistent dim terms).isSome) = (consistent dim terms).isSome := by simp [h0]
  rw [e]; clear e
  induction terms with
  | nil => simp [consistent]
  | cons l r ih =>
    cases l with
    | nil =>
      simp only [consistent]
      refine Iff.trans ih ⟨?_, ?_⟩
      · rintro ⟨pre, t, ts, rest, rfl, h1, h2⟩
        exact ⟨[] :: pre, t, ts, rest, rfl, by simpa using h1, h2⟩
      · rintro ⟨pre, t, ts, rest, h, h1, h2⟩
        cases pre with
        | nil => simp at h
        | cons p pre =>
          simp only [List.cons_append, List.cons.injEq] at h
          exact ⟨pre, t, ts, rest, h.2, fun l hl => h1 l (by simp [hl]), h2⟩
    | cons t ts =>
      simp only [consistent]
      constructor
      · intro h
        refine ⟨[], t, ts, r, rfl, by simp, ?_⟩
        cases hr : raises t dim with
        | false => simp [hr] at h
        | true =>
          have : ¬ (raises t dim = false) := by simp [hr]
          rw [raises_eq_false] at this
          obtain ⟨hj, hd⟩ := Classical.not_imp.1 this
          exact ⟨hj, fun h => hd (Or.inl h), fun h => hd (Or.inr h)⟩
      · rintro ⟨pre, t', ts', rest, h, h1, hj, hd⟩
        cases pre with
        | cons p pre =>
          simp only [List.cons_append, List.cons.injEq] at h
          have := h1 p (by simp)
          rw [← h.1] at this
          cases this
        | nil =>
          simp only [List.nil_append, List.cons.injEq] at h
          obtain ⟨⟨rfl, rfl⟩, rfl⟩ := h
          have : raises t dim = true := by
            cases hr : raises t dim with
            | true => rfl
            | false => exact absurd ((raises_eq_false t dim).1 hr hj) (by omega)
          simp [this]

/-- **C54**, what remains true: for a system with exactly one term, of its own, that is in no composite with other Pauli operators of it,
the dimension is accepted exactly when it fits. -/
theorem C54_single_partial (i dim : Nat) (h0 : dim ≠ 0) (pauli : Bool) (rest : List (List Term))
    (hr : ∀ ts ∈ rest, ∀ t ∈ ts, (i, true) ∉ t) :
    accepts dim ([[(i, pauli)]] :: rest) = true ↔ fits i dim ([[(i, pauli)]] :: rest) := by
  have h1 : accepts dim ([[(i, pauli)]] :: rest) = true ↔ (pauli = true → dim = 2 ∨ dim = 1) := by
    have hr' := raises_eq_false [(i, pauli)] dim
    have : accepts dim ([[(i, pauli)]] :: rest) = true ↔ raises [(i, pauli)] dim = false := by
      simp only [accepts, consistent]
      cases raises [(i, pauli)] dim <;> simp [h0]
    rw [this, hr']
    constructor
    · rintro h rfl; exact h ⟨i, by simp⟩
    · rintro h ⟨j, hj⟩; simp at hj; exact h hj.2
  rw [h1]
  constructor
  · intro h ts hts t ht hi
    rcases List.mem_cons.1 hts with rfl | hts
    · simp at ht
      subst ht
      simp at hi
      exact h hi
    · exact absurd hi (hr ts hts t ht)
  · rintro h rfl
    exact h [[(i, true)]] (by simp) [(i, true)] (by simp) (by simp)

/-- **C54 is false of the code**, first direction: a dimension that does not fit is accepted, because only the first term is looked at.
System 0 has a first term with another operator and a second one with a Pauli operator; the dimension three is accepted. -/
theorem C54_wrongly_accepted : accepts 3 [[[(0, false)], [(0, true)]]] = true ∧ ¬ fits 0 3 [[[(0, false)], [(0, true)]]] := by
  refine ⟨by decide, fun h => ?_⟩
  have := h [[(0, false)], [(0, true)]] (by simp) [(0, true)] (by simp) (by simp)
  omega

/-- **C54 is false of the code**, other direction: a dimension that fits is refused, because the Pauli operator of another system in a
coupling is compared with it.  System 0 has no term of its own and is coupled to the qubit 1. -/
theorem C54_wrongly_refused : accepts 3 [[], [[(0, false), (1, true)]]] = false ∧ fits 0 3 [[], [[(0, false), (1, true)]]] := by
  refine ⟨by decide, fun ts hts t ht hi => ?_⟩
  simp at hts
  rcases hts with rfl | rfl
  · simp at ht
  · simp at ht
    subst ht
    simp at hi

/-- The test of the operator setter, on the other hand, is exact. -/
theorem C54_operator (dims : Nat → Nat) (t : Term) :
    acceptsOperator dims t = true ↔ ∀ i, (i, true) ∈ t → dims i = 2 ∨ dims i = 1 := by
  unfold acceptsOperator
  rw [List.all_eq_true]
  constructor
  · intro h i hi
    have := h _ hi
    simpa using this
  · rintro h ⟨i, b⟩ hi
    cases b with
    | false => simp
    | true => simpa using h i hi

example : acceptsOperator (fun i => if i = 0 then 5 else 2) [(0, false), (1, true)] = true ∧
    acceptsOperator (fun i => if i = 0 then 5 else 2) [(0, true), (1, true)] = false := by decide

end Verif.Tree.Pauli
