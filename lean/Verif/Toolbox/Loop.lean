import Mathlib.Tactic.Common
import Mathlib.Data.List.Basic

/-!
# C94: looping over inputs

`loopIt(func, *inps)` (`QuantumToolbox/_helpers.py:28-57`).  Simplifications: the inputs are finite lists; `func` gets the list of its
arguments and returns a value or raises; an exception ends the loop.
-/
namespace Verif.Toolbox.Loop

variable {A B E : Type}

/-- The next item of every iterator, and what remains; `none` if one is at its end. -/
def heads : List (List A) → Option (List A × List (List A))
  | [] => some ([], [])
  | [] :: _ => none
  | (x :: xs) :: rest => match heads rest with
    | none => none
    | some (hs, ts) => some (x :: hs, xs :: ts)

/-- `zip` with a first iterator and others. -/
def zipFrom : List A → List (List A) → List (List A)
  | [], _ => []
  | x :: xs, rest => match heads rest with
    | none => []
    | some (hs, ts) => (x :: hs) :: zipFrom xs ts

/-- `zip(*inps)`: empty without iterators. -/
def pyZip : List (List A) → List (List A)
  | [] => []
  | l :: rest => zipFrom l rest

/-- The list comprehension. -/
def mapE (f : List A → Except E B) : List (List A) → Except E (List B)
  | [] => .ok []
  | x :: xs => match f x with
    | .error e => .error e
    | .ok b => match mapE f xs with
      | .error e => .error e
      | .ok bs => .ok (b :: bs)

/-- `loopIt` (`_helpers.py:28-57`). -/
def loopIt (f : List A → Except E B) (inps : List (List A)) : Except E (List B) := mapE f (pyZip inps)

/-! ### Lemmas -/

theorem heads_none : ∀ ls : List (List A), heads ls = none ↔ [] ∈ ls
  | [] => by simp [heads]
  | [] :: _ => by simp [heads]
  | (x :: xs) :: rest => by
    rw [heads]
    have ih := heads_none rest
    cases hh : heads rest with
    | none => simp [ih.mp hh]
    | some p =>
      have : [] ∉ rest := fun h => by rw [ih.mpr h] at hh; cases hh
      simp [this]

theorem zip_heads : ∀ (ls : List (List A)) (hs : List A) (ts : List (List A)), heads ls = some (hs, ts) →
    ls.map (fun l => l[0]?) = hs.map some ∧ ∀ i : Nat, ls.map (fun l => l[i + 1]?) = ts.map fun l => l[i]?
  | [], hs, ts, h => by cases h; simp
  | [] :: _, hs, ts, h => by cases h
  | (x :: xs) :: rest, hs, ts, h => by
    rw [heads] at h
    cases hh : heads rest with
    | none => rw [hh] at h; cases h
    | some p =>
      rw [hh] at h
      obtain ⟨hs', ts'⟩ := p
      cases h
      obtain ⟨h1, h2⟩ := zip_heads rest hs' ts' hh
      exact ⟨by simp [h1], fun i => by simp [h2 i]⟩

theorem length_tails (ls : List (List A)) (hs : List A) (ts : List (List A)) (h : heads ls = some (hs, ts)) (n : Nat) :
    (∀ l ∈ ls, n + 1 ≤ l.length) ↔ ∀ l ∈ ts, n ≤ l.length := by
  induction ls generalizing hs ts with
  | nil => cases h; simp
  | cons l rest ih =>
    cases l with
    | nil => cases h
    | cons x xs =>
      rw [heads] at h
      cases hh : heads rest with
      | none => rw [hh] at h; cases h
      | some p =>
        rw [hh] at h
        obtain ⟨hs', ts'⟩ := p
        cases h
        simp only [List.forall_mem_cons, List.length_cons, Nat.add_le_add_iff_right, ih hs' ts' hh]

theorem zipFrom_spec : ∀ (l : List A) (rest : List (List A)),
    (∀ n : Nat, n ≤ (zipFrom l rest).length ↔ ∀ x ∈ l :: rest, n ≤ x.length) ∧
      ∀ (i : Nat) (r : List A), (zipFrom l rest)[i]? = some r → (l :: rest).map (fun x => x[i]?) = r.map some
  | [], rest => ⟨fun n => by
      constructor
      · intro h x _; have : n = 0 := by simpa [zipFrom] using h
        omega
      · intro h; simpa [zipFrom] using h [] (by simp), fun i r h => by simp [zipFrom] at h⟩
  | x :: xs, rest => by
    rw [zipFrom]
    cases hh : heads rest with
    | none =>
      have hm := (heads_none rest).mp hh
      refine ⟨fun n => ⟨fun h y _ => ?_, fun h => ?_⟩, fun i r h => by simp at h⟩
      · have : n = 0 := by simpa using h
        omega
      · simpa using h [] (by simp [hm])
    | some p =>
      obtain ⟨hs, ts⟩ := p
      obtain ⟨h1, h2⟩ := zip_heads rest hs ts hh
      obtain ⟨ih1, ih2⟩ := zipFrom_spec xs ts
      refine ⟨fun n => ?_, fun i r h => ?_⟩
      · cases n with
        | zero => simp
        | succ n =>
          dsimp only
          rw [List.length_cons, Nat.add_le_add_iff_right, ih1 n, List.forall_mem_cons, List.forall_mem_cons, length_tails rest hs ts hh n,
            List.length_cons, Nat.add_le_add_iff_right]
      · cases i with
        | zero =>
          cases h
          simp [h1]
        | succ i =>
          have := ih2 i r h
          rw [List.map_cons, h2 i]
          exact this

theorem mapE_ok (f : List A → Except E B) : ∀ (l : List (List A)) (out : List B), mapE f l = .ok out ↔ l.map f = out.map .ok
  | [], out => by
    rw [mapE, List.map_nil]
    cases out <;> simp
  | x :: xs, out => by
    rw [mapE]
    cases hx : f x with
    | error e => cases out <;> simp [hx]
    | ok b =>
      have ih := mapE_ok f xs
      cases hm : mapE f xs with
      | error e =>
        simp only [reduceCtorEq, false_iff]
        intro h
        cases out with
        | nil => cases h
        | cons c out =>
          rw [List.map_cons, List.map_cons, List.cons.injEq] at h
          rw [(ih out).mpr h.2] at hm
          cases hm
      | ok bs =>
        have hb := (ih bs).mp hm
        simp only [Except.ok.injEq, List.map_cons, hx, hb]
        cases out with
        | nil => simp
        | cons c out =>
          simp only [List.cons.injEq, List.map_cons, Except.ok.injEq]
          refine and_congr_right fun _ => ⟨fun h => by rw [h], fun h => ?_⟩
          exact List.map_injective_iff.mpr (fun a b h => by cases h; rfl) h

theorem mapE_error (f : List A → Except E B) (e : E) : ∀ l : List (List A), mapE f l = .error e ↔
    ∃ (i : Nat) (x : List A), l[i]? = some x ∧ f x = .error e ∧ ∀ (j : Nat) (y : List A), j < i → l[j]? = some y → ∃ b, f y = .ok b
  | [] => by simp [mapE]
  | x :: xs => by
    rw [mapE]
    have ih := mapE_error f e xs
    cases hx : f x with
    | error e' =>
      constructor
      · intro h; cases h; exact ⟨0, x, rfl, hx, fun j _ hj => absurd hj (by omega)⟩
      · rintro ⟨i, y, h1, h2, h3⟩
        cases i with
        | zero => cases h1; rw [hx] at h2; cases h2; rfl
        | succ i =>
          obtain ⟨b, hb⟩ := h3 0 x (by omega) rfl
          rw [hx] at hb; cases hb
    | ok b =>
      have hs : (match mapE f xs with | .error e => .error e | .ok bs => .ok (b :: bs)) = (.error e : Except E (List B)) ↔ mapE f xs = .error e := by
        cases mapE f xs <;> simp
      dsimp only
      rw [hs, ih]
      constructor
      · rintro ⟨i, y, h1, h2, h3⟩
        refine ⟨i + 1, y, h1, h2, fun j z hj hz => ?_⟩
        cases j with
        | zero => cases hz; exact ⟨b, hx⟩
        | succ j => exact h3 j z (by omega) hz
      · rintro ⟨i, y, h1, h2, h3⟩
        cases i with
        | zero => cases h1; rw [hx] at h2; cases h2
        | succ i => exact ⟨i, y, h1, h2, fun j z hj hz => h3 (j + 1) z (by omega) hz⟩

/-! ### Statements -/

/-- The calls that have to be made: one for every position that all inputs have, with the inputs at this position in the order in which they were given. -/
def Calls (inps : List (List A)) (calls : List (List A)) : Prop :=
  (∀ n : Nat, n ≤ calls.length ↔ inps ≠ [] ∧ (∀ x ∈ inps, n ≤ x.length) ∨ n = 0) ∧
    ∀ (i : Nat) (r : List A), calls[i]? = some r → inps.map (fun x => x[i]?) = r.map some

theorem pyZip_calls (inps : List (List A)) : Calls inps (pyZip inps) := by
  cases inps with
  | nil => exact ⟨fun n => by simp [pyZip], fun i r h => by simp [pyZip] at h⟩
  | cons l rest =>
    obtain ⟨h1, h2⟩ := zipFrom_spec l rest
    refine ⟨fun n => ?_, h2⟩
    rw [pyZip, h1 n]
    constructor
    · exact fun h => Or.inl ⟨by simp, h⟩
    · rintro (⟨-, h⟩ | rfl)
      · exact h
      · simp

/-- These conditions determine the calls. -/
theorem C94_calls_unique (inps c c' : List (List A)) (h : Calls inps c) (h' : Calls inps c') : c = c' := by
  have hl : c.length = c'.length := by
    have a := (h'.1 c.length).mpr ((h.1 c.length).mp (Nat.le_refl _))
    have b := (h.1 c'.length).mpr ((h'.1 c'.length).mp (Nat.le_refl _))
    omega
  apply List.ext_getElem hl
  intro i h1 h2
  have a := h.2 i c[i] (List.getElem?_eq_getElem h1)
  have b := h'.2 i c'[i] (List.getElem?_eq_getElem h2)
  exact List.map_injective_iff.mpr (fun x y e => by cases e; rfl) (a.symm.trans b)

/-- `loopIt` returns the values of the function for exactly these calls, in order; it raises what the first failing call raises. -/
theorem C94_loopIt (f : List A → Except E B) (inps : List (List A)) : ∃ calls, Calls inps calls ∧
    (∀ out, loopIt f inps = .ok out ↔ calls.map f = out.map .ok) ∧
    ∀ e, loopIt f inps = .error e ↔ ∃ (i : Nat) (x : List A), calls[i]? = some x ∧ f x = .error e ∧
      ∀ (j : Nat) (y : List A), j < i → calls[j]? = some y → ∃ b, f y = .ok b :=
  ⟨pyZip inps, pyZip_calls inps, fun out => mapE_ok f _ out, fun e => mapE_error f e _⟩

/-- The example of the documentation. -/
example : loopIt (E := Unit) (fun l : List Nat => .ok (l.foldl (· * ·) 1)) [[0, 1, 2, 3], [0, 2, 4], [0, 3, 6, 9]] = .ok [0, 6, 48] := by decide +kernel
example : loopIt (fun l : List Nat => if l = [2, 4] then .error "bad" else .ok l.sum) [[1, 2, 3], [2, 4, 6]] = .error "bad" := by decide +kernel
example : loopIt (E := Unit) (fun l : List Nat => .ok l.sum) [] = .ok [] := by decide +kernel

end Verif.Toolbox.Loop
