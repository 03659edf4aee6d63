import Mathlib.Algebra.BigOperators.Group.List.Basic
import Mathlib.Algebra.Group.Basic

/-!
# C30: copies of quantum systems

Model of `QuantumSystem.copy` and `__rmul__` (`QSystem.py:715-757`) together with the constructors they use (`QSystem.py:75-100, 774-836`)
and `createTerm`/`addTerms`/`_firstTerm` (`QSystem.py:548-669`).  Simplifications: the data of a term (operators, frequency, orders) is an
abstract type `D`, as `copy` only hands it over; a term acts on the system holding it, or on a list of systems inside it, given by their
paths; names are left out: a direct sub-system is found again through the alias `copy` gives to its copy, a deeper one has no such alias
(the look-up raises); the initial state is only followed as far as it can make `copy` fail.
-/
namespace Verif.Tree.Copy

/-- A class of quantum systems: the data of the term made by its constructor (`Cavity`, `Spin`, `Qubit`; none for `QuantumSystem`) and
the dimension its constructor sets (`Qubit`: 2, otherwise 1). -/
structure Cls (D : Type) where
  default : Option D
  startDim : ℕ

/-- What is stored as initial state: nothing, an input, or an array (of the size of the system). -/
inductive Init where
  | none
  | input
  | array
  deriving DecidableEq

/-- A term: the systems it couples (`none`: acts on the system holding it) and its data. -/
structure Trm (D : Type) where
  target : Option (List (List ℕ))
  data : D
  deriving DecidableEq

/-- A quantum system: class, kind (`_QuantumSystem__compSys`), dimension, terms, initial state, sub-systems. -/
inductive QS (D : Type) where
  | node (cls : Cls D) (comp : Option Bool) (dim : ℕ) (terms : List (Trm D)) (init : Init) (subs : List (QS D))

variable {D : Type}
open QS

/-- The terms of a system. -/
def QS.terms : QS D → List (Trm D) | node _ _ _ t _ _ => t

/-- Names of the coupled systems (`QSystem.py:723-728`): only direct sub-systems can be found in the copy. -/
def copyTarget (n : ℕ) : Option (List (List ℕ)) → Option (Option (List (List ℕ)))
  | none => some none
  | some l => if l.all (fun p => match p with | [i] => decide (i < n) | _ => false) then some (some l) else none

/-- The loop over the terms (`QSystem.py:722-739`) from the terms the new system has already: the first term is created when there is
none, otherwise the first term is overwritten. -/
def copyTerms (n : ℕ) : List (Trm D) → List (Trm D) → Option (List (Trm D))
  | new, [] => some new
  | new, t :: r =>
    match copyTarget n t.target with
    | none => none
    | some tg =>
      match new with
      | [] => copyTerms n [⟨tg, t.data⟩] r
      | _ :: rest => copyTerms n (⟨tg, t.data⟩ :: rest) r

/-- Assigning the stored initial state to the new system (`QSystem.py:740-741`): the kind has to be known, and an array has to fit the
dimension the new system has at this moment. -/
def initOk (cls : Cls D) (dim : ℕ) (comp : Option Bool) (init : Init) (nSubs : ℕ) : Bool :=
  match init with
  | .none => true
  | .input => cls.default.isSome || decide (0 < nSubs)
  | .array => if comp = some true then decide (0 < nSubs) else cls.default.isSome && decide (cls.startDim = dim)

mutual
/-- `copy()` (`QSystem.py:715-746`); `none` is an exception. -/
def copy : QS D → Option (QS D)
  | node cls comp dim terms init subs =>
    match copySubs subs with
    | none => none
    | some subs' =>
      let start : List (Trm D) := match cls.default with | none => [] | some d => [⟨none, d⟩]
      match copyTerms subs.length start terms with
      | none => none
      | some terms' =>
        if initOk cls dim comp init subs.length then
          if comp = some true then some (node cls (if subs.length = 0 then none else some true) 1 terms' init subs')
          else some (node cls (some false) dim terms' init subs')
        else none
/-- Copies of the sub-systems in order (`QSystem.py:717-720`). -/
def copySubs : List (QS D) → Option (List (QS D))
  | [] => some []
  | q :: r =>
    match copy q with
    | none => none
    | some q' => match copySubs r with | none => none | some r' => some (q' :: r')
end

/-- `n * system` (`QSystem.py:748-757`): the sub-systems of the new composite. -/
def rmul (n : ℤ) (q : QS D) : Option (List (QS D)) :=
  match List.replicate (n - 1).toNat (copy q) |>.mapM id with
  | none => none
  | some l => some (q :: l)

/-! ### Specification -/

/-- The term list survives copying: one term, or none when the class does not make one. -/
def TermsKept (cls : Cls D) (terms : List (Trm D)) : Prop := terms.length = 1 ∨ (terms = [] ∧ cls.default = none)

/-- The initial states that a new system of the same class accepts: none; an input, if the class makes a term or there are
sub-systems; an array, for a composite with sub-systems or for a class that makes a term and sets the right dimension. -/
def InitFits (cls : Cls D) (dim : ℕ) (comp : Option Bool) (init : Init) (nSubs : ℕ) : Prop :=
  init = .none ∨ (init = .input ∧ (cls.default ≠ none ∨ 0 < nSubs)) ∨
    (init = .array ∧ ((comp = some true ∧ 0 < nSubs) ∨ (comp ≠ some true ∧ cls.default ≠ none ∧ cls.startDim = dim)))

theorem initOk_iff (cls : Cls D) (dim : ℕ) (comp : Option Bool) (init : Init) (nSubs : ℕ) :
    initOk cls dim comp init nSubs = true ↔ InitFits cls dim comp init nSubs := by
  unfold initOk InitFits
  cases init with
  | none => simp
  | input => simp [Option.isSome_iff_ne_none]
  | array =>
    by_cases h : comp = some true
    · simp [h]
    · simp [h, Option.isSome_iff_ne_none]

mutual
/-- The systems for which `copy` works as documented. -/
def Copyable : QS D → Prop
  | node cls comp dim terms init subs =>
    TermsKept cls terms ∧ (∀ t ∈ terms, ∀ l, t.target = some l → ∀ p ∈ l, ∃ i, p = [i] ∧ i < subs.length) ∧
      (comp = some true → dim = 1 ∧ subs ≠ []) ∧ (comp ≠ some true → comp = some false) ∧
      InitFits cls dim comp init subs.length ∧ CopyableL subs
/-- The same for lists. -/
def CopyableL : List (QS D) → Prop
  | [] => True
  | q :: r => Copyable q ∧ CopyableL r
end

mutual
/-- Some system in the structure has this class and these terms. -/
def Has (cls : Cls D) (terms : List (Trm D)) : QS D → Prop
  | node c _ _ t _ s => (c = cls ∧ t = terms) ∨ HasL cls terms s
/-- The same for lists. -/
def HasL (cls : Cls D) (terms : List (Trm D)) : List (QS D) → Prop
  | [] => False
  | q :: r => Has cls terms q ∨ HasL cls terms r
end

theorem copyTarget_some {n : ℕ} {tg tg' : Option (List (List ℕ))} (h : copyTarget n tg = some tg') : tg' = tg := by
  cases tg with
  | none => simpa [copyTarget] using h.symm
  | some l =>
    simp only [copyTarget] at h
    split at h
    · simpa using h.symm
    · cases h

theorem copyTarget_of {n : ℕ} {tg : Option (List (List ℕ))} (h : ∀ l, tg = some l → ∀ p ∈ l, ∃ i, p = [i] ∧ i < n) :
    copyTarget n tg = some tg := by
  cases tg with
  | none => rfl
  | some l =>
    simp only [copyTarget]
    rw [if_pos]
    rw [List.all_eq_true]
    intro p hp
    obtain ⟨i, rfl, hi⟩ := h l rfl p hp
    simpa using hi

/-- The loop keeps the data of the last term only. -/
theorem copyTerms_last {n : ℕ} : ∀ (ts new new' : List (Trm D)), copyTerms n new ts = some new' →
    new' = match ts.getLast? with | none => new | some t => t :: new.tail
  | [], new, new', h => by simpa [copyTerms] using h.symm
  | t :: r, new, new', h => by
    simp only [copyTerms] at h
    cases htg : copyTarget n t.target with
    | none => simp [htg] at h
    | some tg =>
      obtain rfl := copyTarget_some htg
      simp only [htg] at h
      have key : ∀ rest, copyTerms n (⟨t.target, t.data⟩ :: rest) r = some new' →
          new' = match (t :: r).getLast? with | none => rest | some x => x :: rest := by
        intro rest h
        have ih := copyTerms_last r _ _ h
        cases r with
        | nil => simpa using ih
        | cons x r =>
          rw [ih]
          rw [List.getLast?_cons_cons]
          cases hl : (x :: r).getLast? with
          | none => simp at hl
          | some y => simp
      cases new with
      | nil => simpa using key [] h
      | cons a rest =>
        have := key rest h
        rw [this]
        cases hl : (t :: r).getLast? with
        | none => simp at hl
        | some y => simp

theorem start_tail (o : Option D) : (match o with | none => [] | some d => [⟨none, d⟩] : List (Trm D)).tail = [] := by
  cases o <;> rfl

/-- **C30 (what a copy has).** For every system: the copy has the last term of the original as its only term (with the same data and
the same systems), or the default term of its class when the original has no term. -/
theorem C30_last {cls : Cls D} {comp : Option Bool} {dim : ℕ} {terms : List (Trm D)} {init : Init} {subs : List (QS D)} {q' : QS D}
    (h : copy (node cls comp dim terms init subs) = some q') :
    q'.terms = match terms.getLast? with
      | some t => [t]
      | none => match cls.default with | none => [] | some d => [⟨none, d⟩] := by
  simp only [copy] at h
  cases hs : copySubs subs with
  | none => simp [hs] at h
  | some subs' =>
    simp only [hs] at h
    split at h
    · cases h
    · rename_i terms' ht
      have := copyTerms_last _ _ _ ht
      rw [start_tail] at this
      split at h
      · split at h
        · simp only [Option.some.injEq] at h; subst h; rw [QS.terms, this]; cases terms.getLast? <;> simp
        · simp only [Option.some.injEq] at h; subst h; rw [QS.terms, this]; cases terms.getLast? <;> simp
      · cases h

/-- The Hamiltonian of a single system is the sum of its terms (`QSystem.py:211-216`); it survives copying exactly when the terms
before the last one add up to zero. -/
theorem C30_hamiltonian {M : Type} [AddGroup M] (ham : Trm D → M) {cls : Cls D} {comp : Option Bool} {dim : ℕ} {terms : List (Trm D)}
    {init : Init} {subs : List (QS D)} {q' : QS D} (hne : terms ≠ []) (h : copy (node cls comp dim terms init subs) = some q') :
    (q'.terms.map ham).sum = (terms.map ham).sum ↔ (terms.dropLast.map ham).sum = 0 := by
  have := C30_last h
  rw [List.getLast?_eq_getLast_of_ne_nil hne] at this
  simp only at this
  rw [this]
  have e : (terms.map ham).sum = (terms.dropLast.map ham).sum + ham (terms.getLast hne) := by
    have e2 : terms.dropLast ++ [terms.getLast hne] = terms := List.dropLast_append_getLast hne
    have e3 := congrArg (fun l => (List.map ham l).sum) e2
    simp only [List.map_append, List.map_cons, List.map_nil, List.sum_append, List.sum_cons, List.sum_nil, add_zero] at e3
    exact e3.symm
  rw [e]
  simp

mutual
/-- **C30, partial.** A system in which every system has one term (or none, when its class does not make one), couplings only between
direct sub-systems, and an initial state that can be handed over, is copied faithfully, at any depth.  Missing: several terms, deeper
couplings, see `C30_only_if`, `C30_deep_coupling`. -/
theorem C30_copy_partial : ∀ q : QS D, Copyable q → copy q = some q
  | node cls comp dim terms init subs, h => by
    simp only [Copyable] at h
    obtain ⟨h1, h2, h3, h4, h5, h6⟩ := h
    rw [← initOk_iff] at h5
    have hs := C30_copyL subs h6
    have ht : copyTerms subs.length (match cls.default with | none => [] | some d => [⟨none, d⟩] : List (Trm D)) terms
        = some terms := by
      rcases h1 with h1 | ⟨rfl, h1⟩
      · obtain ⟨t, rfl⟩ := List.length_eq_one_iff.1 h1
        simp only [copyTerms, copyTarget_of (h2 t (by simp))]
        cases cls.default <;> simp
      · simp [copyTerms, h1]
    simp only [copy, hs, ht, h5, if_true]
    by_cases hc : comp = some true
    · obtain ⟨rfl, hne⟩ := h3 hc
      subst hc
      have : subs.length ≠ 0 := by simpa using hne
      simp [this]
    · obtain rfl := h4 hc
      simp
theorem C30_copyL : ∀ s : List (QS D), CopyableL s → copySubs s = some s
  | [], _ => rfl
  | q :: r, h => by
    simp only [CopyableL] at h
    simp only [copySubs, C30_copy_partial q h.1, C30_copyL r h.2]
end

mutual
/-- **C30 (exactness).** Whenever a copy is equal to the original, no system in it has more than one term. -/
theorem C30_only_if (cls : Cls D) (terms : List (Trm D)) : ∀ q : QS D, copy q = some q → Has cls terms q → TermsKept cls terms
  | node c comp dim t init s, h, hh => by
    simp only [Has] at hh
    rcases hh with ⟨rfl, rfl⟩ | hh
    · have := C30_last h
      simp only [QS.terms] at this
      cases hl : t.getLast? with
      | some x => rw [hl] at this; left; simp [this]
      | none =>
        have ht : t = [] := by simpa using hl
        right
        refine ⟨ht, ?_⟩
        rw [hl, ht] at this
        cases hd : c.default with
        | none => rfl
        | some d => simp [hd] at this
    · refine C30_only_ifL cls terms s ?_ hh
      simp only [copy] at h
      cases hs : copySubs s with
      | none => simp [hs] at h
      | some s' =>
        simp only [hs] at h
        split at h
        · cases h
        · split at h
          · split at h
            · simp only [Option.some.injEq, node.injEq] at h; rw [h.2.2.2.2.2]
            · simp only [Option.some.injEq, node.injEq] at h; rw [h.2.2.2.2.2]
          · cases h
theorem C30_only_ifL (cls : Cls D) (terms : List (Trm D)) : ∀ s : List (QS D), copySubs s = some s → HasL cls terms s →
    TermsKept cls terms
  | [], _, hh => by simp [HasL] at hh
  | q :: r, h, hh => by
    simp only [copySubs] at h
    cases hq : copy q with
    | none => simp [hq] at h
    | some q' =>
      cases hr : copySubs r with
      | none => simp [hq, hr] at h
      | some r' =>
        simp only [hq, hr, Option.some.injEq, List.cons.injEq] at h
        obtain ⟨rfl, rfl⟩ := h
        simp only [HasL] at hh
        rcases hh with hh | hh
        · exact C30_only_if cls terms q' hq hh
        · exact C30_only_ifL cls terms r' hr hh
end

/-- **C30 (`n * system`), partial.** The composite has `n` equal members for a faithfully copied system and `n ≥ 1`. -/
theorem C30_rmul_partial (n : ℕ) (q : QS D) (h : Copyable q) : rmul (n + 1 : ℕ) q = some (List.replicate (n + 1) q) := by
  have hc := C30_copy_partial q h
  have : ∀ k, (List.replicate k (some q)).mapM id = some (List.replicate k q) := by
    intro k
    induction k with
    | zero => rfl
    | succ k ih => simp [List.replicate_succ, ih]
  simp only [rmul, hc]
  have e : (((n + 1 : ℕ) : ℤ) - 1).toNat = n := by omega
  rw [e, this]
  rfl

/-- False for the code: `0 * system` (and a negative number) has one member. -/
theorem C30_rmul_zero (n : ℤ) (hn : n ≤ 1) (q : QS D) : rmul n q = some [q] := by
  have e : (n - 1).toNat = 0 := by omega
  simp [rmul, e]

/-! ### Witnesses -/

/-- `Cavity` (its default data is called 0 here), `Qubit`, `QuantumSystem`. -/
def cavity : Cls ℕ := ⟨some 0, 1⟩
@[inherit_doc cavity] def plain : Cls ℕ := ⟨none, 1⟩

/-- A faithfully copied structure with a coupling. -/
example : copy (node plain (some true) 1 [⟨some [[0], [1]], 7⟩] .input
    [node cavity (some false) 5 [⟨none, 3⟩] .input [], node cavity (some false) 2 [⟨none, 4⟩] .input []]) =
    some (node plain (some true) 1 [⟨some [[0], [1]], 7⟩] .input
      [node cavity (some false) 5 [⟨none, 3⟩] .input [], node cavity (some false) 2 [⟨none, 4⟩] .input []]) := rfl

/-- False for the code: of two terms only the second one is kept. -/
theorem C30_two_terms (a b : ℕ) : ∃ q : QS ℕ, q.terms = [⟨none, a⟩, ⟨none, b⟩] ∧ ∃ q', copy q = some q' ∧ q'.terms = [⟨none, b⟩] :=
  ⟨node cavity (some false) 5 [⟨none, a⟩, ⟨none, b⟩] .none [], rfl, _, rfl, rfl⟩

/-- False for the code: a composite with a coupling to a system inside an inner composite cannot be copied. -/
theorem C30_deep_coupling : ∃ q : QS ℕ, q.terms = [⟨some [[0, 0], [1]], 7⟩] ∧ copy q = none :=
  ⟨node plain (some true) 1 [⟨some [[0, 0], [1]], 7⟩] .none
    [node plain (some true) 1 [] .none [node cavity (some false) 2 [⟨none, 3⟩] .none []],
      node cavity (some false) 2 [⟨none, 3⟩] .none []], rfl, rfl⟩

/-- False for the code: the copy of a composite without sub-systems (after they were removed) is not a composite any more. -/
theorem C30_empty_composite (cls : Cls D) (dim : ℕ) (terms : List (Trm D)) (init : Init) :
    ∀ q', copy (node cls (some true) dim terms init []) = some q' → q' ≠ node cls (some true) dim terms init [] := by
  intro q' h he
  subst he
  rw [copy] at h
  simp only [copySubs] at h
  split at h
  · cases h
  · split at h
    · simp at h
    · cases h

/-- It is copied, as a system of no kind. -/
example : copy (node plain (some true) 1 [] .none []) = some (node plain none 1 [] .none []) := rfl

/-- False for the code: a single `QuantumSystem` with an initial state cannot be copied (its kind is not known yet when the initial
state is assigned), and neither can a `Cavity` whose initial state is given as an array. -/
theorem C30_initial_state : copy (node plain (some false) 2 [⟨none, 3⟩] .input []) = none ∧
    copy (node cavity (some false) 2 [⟨none, 3⟩] .array []) = none := ⟨rfl, rfl⟩

end Verif.Tree.Copy
