import Verif.Names.Model

/-!
# List arguments (C24)
-/
namespace Verif.Names
variable {α S R : Type}

mutual
/-- The single objects in a nested list, from left to right. -/
def Arg.leaves : Arg α → List α
  | .one a => [a]
  | .list l => Arg.leavesList l
/-- The same for a list of arguments. -/
def Arg.leavesList : List (Arg α) → List α
  | [] => []
  | x :: rest => x.leaves ++ Arg.leavesList rest
end

/-- Plain iteration over a list of objects, collecting the values; stops at the first exception. -/
def forEach (func : α → S → Option R × S) : List α → List R → S → Option (List R) × S
  | [], rs, s => (some rs, s)
  | a :: rest, rs, s => match func a s with
    | (none, s') => (none, s')
    | (some r, s') => forEach func rest (rs ++ [r]) s'

theorem forEach_append (func : α → S → Option R × S) (l l' : List α) (rs : List R) (s : S) :
    forEach func (l ++ l') rs s = match forEach func l rs s with
      | (none, s') => (none, s')
      | (some rs', s') => forEach func l' rs' s' := by
  induction l generalizing rs s with
  | nil => rfl
  | cons a l ih =>
    simp only [List.cons_append, forEach]
    rcases func a s with ⟨_ | r, s'⟩
    · rfl
    · exact ih _ _

theorem forEach_shift (func : α → S → Option R × S) (l : List α) (rs : List R) (s : S) :
    forEach func l rs s = ((forEach func l [] s).1.map (rs ++ ·), (forEach func l [] s).2) := by
  induction l generalizing rs s with
  | nil => simp [forEach]
  | cons a l ih =>
    simp only [forEach]
    rcases func a s with ⟨_ | r, s'⟩
    · rfl
    · simp only [List.nil_append]
      rw [ih, ih [r]]
      simp only [Option.map_map, Function.comp_def, List.append_assoc]

mutual
theorem recurse_effects (func : α → S → Option R × S) (a : Arg α) (s : S) :
    (recurse func a s).2 = (forEach func a.leaves [] s).2 ∧
    ((recurse func a s).1.isSome = (forEach func a.leaves [] s).1.isSome) := by
  match a with
  | .one a =>
    simp only [recurse, Arg.leaves, forEach]
    rcases func a s with ⟨_ | r, s'⟩ <;> simp
  | .list l => simpa only [recurse, Arg.leaves] using recurseList_effects func l none s
theorem recurseList_effects (func : α → S → Option R × S) (l : List (Arg α)) (r : Option R) (s : S) :
    (recurseList func l r s).2 = (forEach func (Arg.leavesList l) [] s).2 ∧
    ((recurseList func l r s).1.isSome = (forEach func (Arg.leavesList l) [] s).1.isSome) := by
  match l with
  | [] => simp [recurseList, Arg.leavesList, forEach]
  | x :: rest =>
    have h1 := recurse_effects func x s
    simp only [recurseList, Arg.leavesList, forEach_append]
    rcases hx : recurse func x s with ⟨_ | r', s'⟩ <;> rcases hy : forEach func x.leaves [] s with ⟨_ | rs, s''⟩ <;>
      simp only [hx, hy] at h1 ⊢
    · exact ⟨h1.1, rfl⟩
    · simp at h1
    · simp at h1
    · rw [forEach_shift, ← h1.1]
      have h2 := recurseList_effects func rest r' s'
      refine ⟨h2.1, ?_⟩
      rw [h2.2]; cases (forEach func (Arg.leavesList rest) [] s').1 <;> rfl
end

mutual
/-- No empty list occurs inside. -/
def Arg.full : Arg α → Prop
  | .one _ => True
  | .list l => l ≠ [] ∧ Arg.fullList l
/-- The same for all elements of a list. -/
def Arg.fullList : List (Arg α) → Prop
  | [] => True
  | x :: rest => x.full ∧ Arg.fullList rest
end

theorem forEach_length (func : α → S → Option R × S) (l : List α) (rs out : List R) (s s' : S)
    (h : forEach func l rs s = (some out, s')) : out.length = rs.length + l.length := by
  induction l generalizing rs s with
  | nil => simp only [forEach, Prod.mk.injEq, Option.some.injEq] at h; simp [h.1]
  | cons a l ih =>
    simp only [forEach] at h
    rcases hf : func a s with ⟨_ | r, s1⟩ <;> rw [hf] at h
    · simp at h
    · have := ih _ _ h; simp only [List.length_append, List.length_cons, List.length_nil] at this ⊢; omega

mutual
theorem recurse_value (func : α → S → Option R × S) (a : Arg α) (ha : a.full) (s : S) :
    (recurse func a s).1 = (forEach func a.leaves [] s).1.map List.getLast? ∧ a.leaves ≠ [] := by
  match a with
  | .one a =>
    simp only [recurse, Arg.leaves, forEach]
    rcases func a s with ⟨_ | r, s'⟩ <;> simp
  | .list l =>
    simp only [Arg.full] at ha
    simp only [recurse, Arg.leaves]
    have := recurseList_value func l ha.2 none s
    obtain ⟨h1, h2⟩ := this
    refine ⟨?_, h2 ha.1⟩
    rw [h1]
    rcases hf : forEach func (Arg.leavesList l) [] s with ⟨_ | rs, s'⟩
    · rfl
    · have hl := forEach_length func _ _ _ _ _ hf
      have hne : rs ≠ [] := by
        intro h; subst h; simp at hl; exact h2 ha.1 (List.length_eq_zero_iff.mp hl.symm)
      simp only [Option.map_some, Option.some.injEq]
      cases rs with
      | nil => exact absurd rfl hne
      | cons x xs => cases h : (x :: xs).getLast? with
        | none => simp at h
        | some y => rfl
theorem recurseList_value (func : α → S → Option R × S) (l : List (Arg α)) (hl : Arg.fullList l) (r : Option R) (s : S) :
    (recurseList func l r s).1 = (forEach func (Arg.leavesList l) [] s).1.map (fun rs => rs.getLast?.or r) ∧
    (l ≠ [] → Arg.leavesList l ≠ []) := by
  match l with
  | [] => simp [recurseList, Arg.leavesList, forEach]
  | x :: rest =>
    simp only [Arg.fullList] at hl
    have h1 := recurse_value func x hl.1 s
    have h0 := recurse_effects func x s
    refine ⟨?_, fun _ h => h1.2 (List.append_eq_nil_iff.mp h).1⟩
    simp only [recurseList, Arg.leavesList, forEach_append]
    rcases hx : recurse func x s with ⟨_ | r', s'⟩ <;> rcases hy : forEach func x.leaves [] s with ⟨_ | rs, s''⟩ <;>
      simp only [hx, hy] at h0 h1 ⊢
    · rfl
    · simp at h0
    · simp at h0
    · rw [forEach_shift, ← h0.1]
      have h2 := recurseList_value func rest hl.2 r' s'
      have hlen := forEach_length func _ _ _ _ _ hy
      rw [h2.1]
      rcases forEach func (Arg.leavesList rest) [] s' with ⟨_ | rs', s3⟩
      · rfl
      · have e1 : r' = rs.getLast? := by simpa using h1.1
        have e2 : rs ≠ [] := by
          intro h; subst h; simp at hlen; exact h1.2 (List.length_eq_zero_iff.mp hlen.symm)
        simp only [Option.map_some, Option.some.injEq, e1, List.getLast?_append]
        cases rs'.getLast? with
        | some y => rfl
        | none =>
          cases h : rs.getLast? with
          | none => simp at h; exact absurd h e2
          | some y => rfl
end

/-- **C24** a decorated method processes every single object in a nested list exactly once, from left to right, stopping only
at an exception. -/
theorem C24_each_once (func : α → S → Option R × S) (a : Arg α) (s : S) :
    (recurse func a s).2 = (forEach func a.leaves [] s).2 ∧
    ((recurse func a s).1 = none ↔ (forEach func a.leaves [] s).1 = none) := by
  have h := recurse_effects func a s
  refine ⟨h.1, ?_⟩
  rw [← Option.isNone_iff_eq_none, ← Option.isNone_iff_eq_none, ← Option.not_isSome, ← Option.not_isSome, h.2]

/-- **C24** its value is the one of the last object, unless an empty list occurs in the argument. -/
theorem C24_value (func : α → S → Option R × S) (a : Arg α) (ha : a.full) (s : S) :
    (recurse func a s).1 = (forEach func a.leaves [] s).1.map List.getLast? := (recurse_value func a ha s).1

/-- A trailing empty list makes the value `None` although an object was processed. -/
theorem C24_trailing_empty (func : α → S → Option R × S) (a : α) (s : S) (r : R) (h : (func a s).1 = some r) :
    (recurse func (.list [.one a, .list []]) s).1 = some none := by
  rcases hf : func a s with ⟨_ | r', s'⟩
  · rw [hf] at h; simp at h
  · simp [recurse, recurseList, hf]

/-- Appending to a log, with nested lists. -/
example : recurse (fun (a : Nat) (s : List Nat) => (some (a * 10), s ++ [a]))
    (.list [.one 1, .list [.one 2, .list [.one 3]], .one 4]) [] = (some (some 40), [1, 2, 3, 4]) := by
  simp [recurse, recurseList]

end Verif.Names
