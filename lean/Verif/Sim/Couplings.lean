import Mathlib.Data.List.Basic

/-!
# C33: the coupling helpers `JC`, `Rabi`, `Dicke`

Model of `checkCavQub` and the helpers (`extensions/couplings.py:95-151`).  Simplifications: a system is its identity and its class
(`Cavity`, `Spin`, `Qubit`, or another one; `Qubit` is a subclass of `Spin`), user-defined subclasses are left out; that `createTerm`
refuses systems that are not contained in the composite is C31/C54; the result is the pair of systems (cavity first) and the operators of
the two terms.
-/
namespace Verif.Sim.Couplings

/-- The class of a system. -/
inductive Kind where
  | cavity
  | spin
  | qubit
  | other
  deriving DecidableEq

/-- A system: identity and class. -/
structure S where
  id : ℕ
  kind : Kind
  deriving DecidableEq

/-- `isinstance(s, (Qubit, Spin))`. -/
def S.spinLike (s : S) : Bool := s.kind = .spin || s.kind = .qubit

/-- `isinstance(s, Cavity)`. -/
def S.isCav (s : S) : Bool := s.kind = .cavity

/-- `isinstance(s, t.__class__)` for systems of the three classes. -/
def instanceOf (s t : S) : Bool :=
  match t.kind with
  | .cavity => s.isCav
  | .spin => s.spinLike
  | .qubit => decide (s.kind = .qubit)
  | .other => false

/-- How a call ends: the two systems in the order used by the coupling, a `ValueError`, an unbound local variable, or a
`RecursionError`. -/
inductive Res where
  | ok (cav spin : S)
  | valueError
  | unbound
  | recursion
  deriving DecidableEq

/-- The loop over the sub-systems (`couplings.py:105-114`). -/
def search : List S → List S → List S
  | found, [] => found
  | found, s :: r =>
    if s.isCav || s.spinLike then
      match found with
      | [] => search [s] r
      | [t] => if instanceOf s t then search [t] r else [t, s]
      | l => l
    else search found r

/-- `return couplerDecorator(obj, couplingStrength, *qsystems)` (`couplings.py:115`), where `k` is the recursive call. -/
def again (subs : List S) (k : Option S → Option S → Res) : Res :=
  match search [] subs with
  | [] => k none none
  | [x] => k (some x) none
  | x :: y :: _ => k (some x) (some y)

/-- `couplerDecorator` (`couplings.py:96-117`), with the recursion limit `lim`. -/
def resolve (subs : List S) : ℕ → Option S → Option S → Res
  | 0, _, _ => .recursion
  | lim + 1, a, b =>
    match a, b with
    | some x, b' =>
      if x.spinLike then
        match b' with
        | some y => if y.isCav then .ok y x else .valueError
        | none => .valueError
      else match b' with
        | some y => if y.spinLike then (if x.isCav then .ok x y else .valueError) else .unbound
        | none => again subs (resolve subs lim)
    | none, some y => if y.spinLike then .valueError else again subs (resolve subs lim)
    | none, none => again subs (resolve subs lim)

/-- Operators used by the helpers. -/
inductive Op where
  | create | destroy | Jp | Jm | Jx | sigmax
  deriving DecidableEq

/-- The three helpers. -/
inductive Helper where
  | jc | rabi | dicke
  deriving DecidableEq

/-- The operators of the two terms (`couplings.py:120-151`); `zOp`: the operator of the spin is `sigmaz` or `Jz`; `none`: unbound local
variable. -/
def termsOf (h : Helper) (zOp : Bool) : Option (List (Op × Op)) :=
  match h, zOp with
  | .jc, true => some [(.destroy, .Jp), (.create, .Jm)]
  | .jc, false => some [(.destroy, .create), (.create, .destroy)]
  | .rabi, true => some [(.destroy, .sigmax), (.create, .sigmax)]
  | .dicke, true => some [(.destroy, .Jx), (.create, .Jx)]
  | _, false => none

/-! ### Properties -/

theorem not_both (s : S) (h : s.isCav = true) : s.spinLike = false := by
  simp only [S.isCav, decide_eq_true_eq] at h
  simp [S.spinLike, h]

/-- **C33 (order of the arguments).** The order in which the two systems are given never matters, not even for the way a call fails. -/
theorem C33_symmetric (subs : List S) (lim : ℕ) (a b : Option S) : resolve subs lim a b = resolve subs lim b a := by
  cases lim with
  | zero => rfl
  | succ lim =>
    cases a with
    | none =>
      cases b with
      | none => rfl
      | some y => simp only [resolve]
    | some x =>
      cases b with
      | none => simp only [resolve]
      | some y =>
        simp only [resolve]
        cases hx : x.spinLike <;> cases hy : y.spinLike <;> simp
        have h : ∀ z : S, z.spinLike = true → z.isCav = false := by
          intro z hz
          cases hc : z.isCav
          · rfl
          · rw [not_both z hc] at hz; cases hz
        simp [h x hx, h y hy]

/-- **C33 (both given).** A cavity and a spin (or qubit), in either order, are used as given. -/
theorem C33_given (subs : List S) (lim : ℕ) (c q : S) (hc : c.isCav = true) (hq : q.spinLike = true) :
    resolve subs (lim + 1) (some c) (some q) = .ok c q ∧ resolve subs (lim + 1) (some q) (some c) = .ok c q := by
  have h : resolve subs (lim + 1) (some c) (some q) = .ok c q := by simp [resolve, not_both c hc, hq, hc]
  exact ⟨h, by rw [C33_symmetric]; exact h⟩

/-- Whatever happens, the first system of a successful call is a cavity and the second one a spin (or qubit), each of them given or a
sub-system. -/
theorem C33_sound (subs : List S) : ∀ (lim : ℕ) (a b : Option S) (c q : S), resolve subs lim a b = .ok c q →
    c.isCav = true ∧ q.spinLike = true ∧ (c ∈ subs ∨ a = some c ∨ b = some c) ∧ (q ∈ subs ∨ a = some q ∨ b = some q)
  | 0, a, b, c, q, h => by simp [resolve] at h
  | lim + 1, a, b, c, q, h => by
    have hs : ∀ l, search [] subs = l → ∀ x ∈ l, x ∈ subs := by
      rintro l rfl x hx
      have : ∀ (r found : List S), ∀ x ∈ search found r, x ∈ found ∨ x ∈ r := by
        intro r
        induction r with
        | nil => intro found x hx; exact Or.inl hx
        | cons s r ih =>
          intro found x hx
          simp only [search] at hx
          split at hx
          · split at hx
            · rcases ih _ _ hx with h | h
              · right; simp at h; simp [h]
              · right; simp [h]
            · split at hx
              · rcases ih _ _ hx with h | h
                · left; exact h
                · right; simp [h]
              · simp only [List.mem_cons, List.not_mem_nil, or_false] at hx ⊢
                rcases hx with rfl | rfl
                · left; rfl
                · right; left; rfl
            · exact Or.inl hx
          · rcases ih _ _ hx with h | h
            · left; exact h
            · right; simp [h]
      simpa using this subs [] x hx
    have hagain : again subs (resolve subs lim) = .ok c q → c.isCav = true ∧ q.spinLike = true ∧ c ∈ subs ∧ q ∈ subs := by
      intro h
      simp only [again] at h
      split at h
      · have := C33_sound subs lim _ _ _ _ h
        simp at this; exact this
      · rename_i x hx
        have hm := hs _ hx
        have := C33_sound subs lim _ _ _ _ h
        refine ⟨this.1, this.2.1, ?_, ?_⟩
        · rcases this.2.2.1 with h | h | h
          · exact h
          · cases h; exact hm _ (by simp)
          · cases h
        · rcases this.2.2.2 with h | h | h
          · exact h
          · cases h; exact hm _ (by simp)
          · cases h
      · rename_i x y l hx
        have hm := hs _ hx
        have := C33_sound subs lim _ _ _ _ h
        refine ⟨this.1, this.2.1, ?_, ?_⟩
        · rcases this.2.2.1 with h | h | h
          · exact h
          · cases h; exact hm _ (by simp)
          · cases h; exact hm _ (by simp)
        · rcases this.2.2.2 with h | h | h
          · exact h
          · cases h; exact hm _ (by simp)
          · cases h; exact hm _ (by simp)
    simp only [resolve] at h
    cases a with
    | none =>
      cases b with
      | none => obtain ⟨h1, h2, h3, h4⟩ := hagain h; exact ⟨h1, h2, Or.inl h3, Or.inl h4⟩
      | some y =>
        simp only at h
        split at h
        · cases h
        · obtain ⟨h1, h2, h3, h4⟩ := hagain h; exact ⟨h1, h2, Or.inl h3, Or.inl h4⟩
    | some x =>
      simp only at h
      split at h
      · rename_i hx
        cases b with
        | none => cases h
        | some y =>
          simp only at h
          split at h
          · rename_i hy; cases h; exact ⟨hy, hx, by simp, by simp⟩
          · cases h
      · cases b with
        | none => obtain ⟨h1, h2, h3, h4⟩ := hagain h; exact ⟨h1, h2, Or.inl h3, Or.inl h4⟩
        | some y =>
          simp only at h
          split at h
          · rename_i hy
            split at h
            · rename_i hx; cases h; exact ⟨hx, hy, by simp, by simp⟩
            · cases h
          · cases h

/-- Systems that are neither are skipped. -/
theorem search_skip (l : List S) (hl : ∀ x ∈ l, x.isCav = false ∧ x.spinLike = false) (found r : List S) :
    search found (l ++ r) = search found r := by
  induction l with
  | nil => rfl
  | cons x l ih =>
    have := hl x (by simp)
    simp only [List.cons_append, search, this.1, this.2, Bool.or_self, Bool.false_eq_true, if_false]
    exact ih fun y hy => hl y (by simp [hy])

/-- Further systems that the loop regards as the same class are skipped. -/
theorem search_same (t : S) (l : List S) (hl : ∀ x ∈ l, (x.isCav || x.spinLike) = true → instanceOf x t = true) (r : List S) :
    search [t] (l ++ r) = search [t] r := by
  induction l with
  | nil => rfl
  | cons x l ih =>
    have := hl x (by simp)
    have ih := ih fun y hy => hl y (by simp [hy])
    simp only [List.cons_append, search]
    split
    · rename_i h; simp only [this h, if_true]; exact ih
    · exact ih

theorem search_pair (t s : S) (r : List S) (hs : (s.isCav || s.spinLike) = true) (hi : instanceOf s t = false) :
    search [t] (s :: r) = [t, s] := by
  simp [search, hs, hi]

/-- The first cavity and the first spin or qubit of a list of systems. -/
def firstCav (subs : List S) : Option S := subs.find? S.isCav
@[inherit_doc firstCav] def firstSpin (subs : List S) : Option S := subs.find? S.spinLike

/-- The constellation the loop handles wrongly: a `Qubit` is the first relevant system and a `Spin` that is not a qubit comes before
every cavity. -/
def QubitThenSpin (subs : List S) : Prop :=
  ∃ q, firstSpin subs = some q ∧ q.kind = .qubit ∧ ∃ s, (subs.filter fun x => x.isCav || decide (x.kind = .spin)).head? = some s ∧ s.kind = .spin

theorem find_split {p : S → Bool} : ∀ {l : List S} {x : S}, l.find? p = some x →
    ∃ a b, l = a ++ x :: b ∧ p x = true ∧ ∀ y ∈ a, p y = false
  | [], x, h => by simp at h
  | y :: l, x, h => by
    simp only [List.find?] at h
    split at h
    · rename_i hy; cases h; exact ⟨[], l, rfl, hy, by simp⟩
    · rename_i hy
      obtain ⟨a, b, rfl, h1, h2⟩ := find_split h
      refine ⟨y :: a, b, rfl, h1, ?_⟩
      intro z hz
      rcases List.mem_cons.1 hz with rfl | hz
      · simpa using hy
      · exact h2 z hz

/-- Relevant systems before the first one are not relevant. -/
theorem first_relevant (subs : List S) (c q : S) (hc : firstCav subs = some c) (hq : firstSpin subs = some q) :
    (∃ a b r, subs = a ++ c :: (b ++ q :: r) ∧ (∀ y ∈ a, y.isCav = false ∧ y.spinLike = false) ∧ (∀ y ∈ b, y.spinLike = false)) ∨
    (∃ a b r, subs = a ++ q :: (b ++ c :: r) ∧ (∀ y ∈ a, y.isCav = false ∧ y.spinLike = false) ∧ (∀ y ∈ b, y.isCav = false)) := by
  obtain ⟨a, b, h1, h2, h3⟩ := find_split hc
  obtain ⟨a', b', h1', h2', h3'⟩ := find_split hq
  have hne : c ≠ q := by rintro rfl; rw [not_both c h2] at h2'; cases h2'
  rw [h1] at h1'
  rcases List.append_eq_append_iff.1 h1' with ⟨l, hl1, hl2⟩ | ⟨l, hl1, hl2⟩
  · left
    cases l with
    | nil => simp only [List.nil_append, List.cons.injEq] at hl2; exact absurd hl2.1 hne
    | cons y l =>
      simp only [List.cons_append, List.cons.injEq] at hl2
      obtain ⟨rfl, rfl⟩ := hl2
      refine ⟨a, l, b', h1, fun y hy => ⟨h3 y hy, h3' y (by simp [hl1, hy])⟩, fun y hy => h3' y (by simp [hl1, hy])⟩
  · right
    cases l with
    | nil => simp only [List.nil_append, List.cons.injEq] at hl2; exact absurd hl2.1.symm hne
    | cons y l =>
      simp only [List.cons_append, List.cons.injEq] at hl2
      obtain ⟨rfl, rfl⟩ := hl2
      refine ⟨a', l, b, ?_, fun y hy => ⟨h3 y (by simp [hl1, hy]), h3' y hy⟩, fun y hy => h3 y (by simp [hl1, hy])⟩
      rw [h1, hl1]; simp

/-- **C33 (taken from the composite), partial.** When the composite contains a cavity and a spin (or qubit), the first of each is used,
except in the constellation `QubitThenSpin`, where a `ValueError` is raised although both exist (`C33_qubit_then_spin`). -/
theorem C33_composite_partial (subs : List S) (lim : ℕ) (c q : S) (hc : firstCav subs = some c) (hq : firstSpin subs = some q)
    (hn : ¬ QubitThenSpin subs) : resolve subs (lim + 2) none none = .ok c q := by
  have hcc : c.isCav = true := List.find?_some hc
  have hqq : q.spinLike = true := List.find?_some hq
  have hcr : (c.isCav || c.spinLike) = true := by simp [hcc]
  have hqr : (q.isCav || q.spinLike) = true := by simp [hqq]
  have hck : c.kind = .cavity := by simpa [S.isCav] using hcc
  have hqc : q.isCav = false := by
    cases h : q.isCav
    · rfl
    · rw [not_both q h] at hqq; cases hqq
  rcases first_relevant subs c q hc hq with ⟨a, b, r, h1, h2, h3⟩ | ⟨a, b, r, h1, h2, h3⟩
  · have hs : search [] subs = [c, q] := by
      rw [h1, search_skip a h2]
      have : search [] (c :: (b ++ q :: r)) = search [c] (b ++ q :: r) := by simp [search, hcc]
      rw [this, search_same c b ?_, search_pair c q r hqr]
      · simp [instanceOf, hck, hqc]
      · intro x hx hrel
        simp only [h3 x hx, Bool.or_false] at hrel
        simp [instanceOf, hck, hrel]
    simp only [resolve, again, hs, not_both c hcc, hqq, hcc, if_true, Bool.false_eq_true, if_false]
  · have hs : search [] subs = [q, c] := by
      rw [h1, search_skip a h2]
      have : search [] (q :: (b ++ c :: r)) = search [q] (b ++ c :: r) := by simp [search, hqq]
      rw [this, search_same q b ?_, search_pair q c r hcr]
      · have := not_both c hcc
        have hk : q.kind = .spin ∨ q.kind = .qubit := by simpa [S.spinLike] using hqq
        rcases hk with hk | hk <;> simp [instanceOf, hk, this, hck]
      · intro x hx hrel
        simp only [h3 x hx, Bool.false_or] at hrel
        have hk : q.kind = .spin ∨ q.kind = .qubit := by simpa [S.spinLike] using hqq
        rcases hk with hk | hk
        · simp [instanceOf, hk, hrel]
        · by_contra hx'
          have hxk : x.kind = .spin := by
            simp only [instanceOf, hk, decide_eq_true_eq] at hx'
            have : x.kind = .spin ∨ x.kind = .qubit := by simpa [S.spinLike] using hrel
            exact this.resolve_right hx'
          apply hn
          refine ⟨q, hq, hk, ?_⟩
          have hf : subs.filter (fun x => x.isCav || decide (x.kind = .spin)) =
              b.filter (fun x => decide (x.kind = .spin)) ++ (c :: r).filter (fun x => x.isCav || decide (x.kind = .spin)) := by
            rw [h1, List.filter_append, List.filter_cons, List.filter_append]
            have ha : a.filter (fun x => x.isCav || decide (x.kind = .spin)) = [] := by
              rw [List.filter_eq_nil_iff]
              intro y hy
              have := h2 y hy
              have h' : ¬ (y.kind = .spin ∨ y.kind = .qubit) := by simpa [S.spinLike] using this.2
              simp [this.1]
              exact fun h => h' (Or.inl h)
            rw [ha]
            have hb : b.filter (fun x => x.isCav || decide (x.kind = .spin)) = b.filter (fun x => decide (x.kind = .spin)) := by
              apply List.filter_congr
              intro y hy
              simp [h3 y hy]
            simp [hb, hqc, hk]
          rw [hf]
          have hmem : x ∈ b.filter (fun x => decide (x.kind = .spin)) := by simp [hx, hxk]
          cases hbf : b.filter (fun x => decide (x.kind = .spin)) with
          | nil => rw [hbf] at hmem; cases hmem
          | cons y l =>
            refine ⟨y, rfl, ?_⟩
            have : y ∈ b.filter (fun x => decide (x.kind = .spin)) := by rw [hbf]; simp
            simpa using (List.mem_filter.1 this).2
    simp only [resolve, again, hs, hqq, hcc, if_true]

/-- **C33 (errors), partial.** A `ValueError` is raised when two systems are given of which one is a spin and the other is no cavity,
when only a spin is given, and when nothing is given and the composite has a spin but no cavity.  Missing: the cases of
`C33_recursion` and `C33_unbound`. -/
theorem C33_valueError_partial (subs : List S) (lim : ℕ) (x : S) (hx : x.spinLike = true) :
    (∀ y : S, y.isCav = false → resolve subs (lim + 1) (some x) (some y) = .valueError) ∧
    resolve subs (lim + 1) (some x) none = .valueError ∧
    (x ∈ subs → (∀ y ∈ subs, y.isCav = false) → resolve subs (lim + 2) none none = .valueError) := by
  refine ⟨fun y hy => by simp [resolve, hx, hy], by simp [resolve, hx], fun hmem hno => ?_⟩
  have key : ∀ (r : List S) (t : S), t.spinLike = true → (∀ y ∈ r, y.isCav = false) →
      search [t] r = [t] ∨ ∃ s, search [t] r = [t, s] ∧ s.spinLike = true := by
    intro r
    induction r with
    | nil => intro t _ _; exact Or.inl rfl
    | cons s r ih =>
      intro t ht hr
      simp only [search]
      split
      · rename_i hs
        split
        · exact ih t ht fun y hy => hr y (by simp [hy])
        · right
          refine ⟨s, rfl, ?_⟩
          simpa [hr s (by simp)] using hs
      · exact ih t ht fun y hy => hr y (by simp [hy])
  have first : ∃ t, t.spinLike = true ∧ (search [] subs = [t] ∨ ∃ s, search [] subs = [t, s] ∧ s.spinLike = true) := by
    have : ∀ (r : List S), x ∈ r → (∀ y ∈ r, y.isCav = false) →
        ∃ t, t.spinLike = true ∧ (search [] r = [t] ∨ ∃ s, search [] r = [t, s] ∧ s.spinLike = true) := by
      intro r
      induction r with
      | nil => intro h; cases h
      | cons s r ih =>
        intro hm hr
        simp only [search, hr s (by simp), Bool.false_or]
        cases hs : s.spinLike with
        | true => exact ⟨s, hs, key r s hs fun y hy => hr y (by simp [hy])⟩
        | false =>
          simp only [Bool.false_eq_true, if_false]
          refine ih ?_ fun y hy => hr y (by simp [hy])
          rcases List.mem_cons.1 hm with rfl | hm
          · rw [hx] at hs; cases hs
          · exact hm
    exact this subs hmem hno
  obtain ⟨t, ht, h | ⟨s, h, hs⟩⟩ := first
  · simp [resolve, again, h, ht]
  · have : s.isCav = false := by
      cases hc : s.isCav
      · rfl
      · rw [not_both s hc] at hs; cases hs
    simp [resolve, again, h, ht, this]

/-- False for the code: without a spin (or qubit) in the composite the call never ends with a `ValueError` but with a `RecursionError`,
whatever the recursion limit. -/
theorem C33_recursion (subs : List S) (h : ∀ y ∈ subs, y.spinLike = false) (lim : ℕ) : resolve subs lim none none = .recursion := by
  have hcav : ∀ (r : List S) (t : S), t.kind = .cavity → (∀ y ∈ r, y.spinLike = false) → search [t] r = [t] := by
    intro r
    induction r with
    | nil => intro t _ _; rfl
    | cons s r ih =>
      intro t ht hr
      simp only [search, hr s (by simp), Bool.or_false]
      cases hs : s.isCav with
      | true => simp only [if_true, instanceOf, ht, hs]; exact ih t ht fun y hy => hr y (by simp [hy])
      | false => simp only [Bool.false_eq_true, if_false]; exact ih t ht fun y hy => hr y (by simp [hy])
  have hs : search [] subs = [] ∨ ∃ t, search [] subs = [t] ∧ t.spinLike = false := by
    have : ∀ r : List S, (∀ y ∈ r, y.spinLike = false) → search [] r = [] ∨ ∃ t, search [] r = [t] ∧ t.spinLike = false := by
      intro r
      induction r with
      | nil => intro _; exact Or.inl rfl
      | cons s r ih =>
        intro hr
        simp only [search, hr s (by simp), Bool.or_false]
        cases hs : s.isCav with
        | true =>
          right
          exact ⟨s, hcav r s (by simpa [S.isCav] using hs) fun y hy => hr y (by simp [hy]), hr s (by simp)⟩
        | false => simp only [Bool.false_eq_true, if_false]; exact ih fun y hy => hr y (by simp [hy])
    exact this subs h
  rcases hs with hs | ⟨t, hs, ht⟩
  · induction lim with
    | zero => rfl
    | succ lim ih => simp only [resolve, again, hs, ih]
  · have : ∀ lim, resolve subs lim (some t) none = .recursion := by
      intro lim
      induction lim with
      | zero => rfl
      | succ lim ih => simp only [resolve, ht, Bool.false_eq_true, if_false, again, hs, ih]
    cases lim with
    | zero => rfl
    | succ lim => simp only [resolve, again, hs, this]

/-- False for the code: two given systems of which none is a spin give an unbound local variable. -/
theorem C33_unbound (subs : List S) (lim : ℕ) (x y : S) (hx : x.spinLike = false) (hy : y.spinLike = false) :
    resolve subs (lim + 1) (some x) (some y) = .unbound := by
  simp [resolve, hx, hy]

/-- False for the code: a cavity that is given without a spin is ignored, the first cavity of the composite is used instead. -/
theorem C33_cavity_ignored : resolve [⟨0, .cavity⟩, ⟨1, .cavity⟩, ⟨2, .qubit⟩] 9 (some ⟨1, .cavity⟩) none =
    .ok ⟨0, .cavity⟩ ⟨2, .qubit⟩ := by decide

/-- False for the code: the order of the sub-systems of the composite matters for which error or result is produced. -/
theorem C33_qubit_then_spin : resolve [⟨0, .qubit⟩, ⟨1, .spin⟩, ⟨2, .cavity⟩] 9 none none = .valueError ∧
    resolve [⟨1, .spin⟩, ⟨0, .qubit⟩, ⟨2, .cavity⟩] 9 none none = .ok ⟨2, .cavity⟩ ⟨1, .spin⟩ := by decide

/-- False for the code, in general: a system that is no spin and is given alone is ignored. -/
theorem C33_lone_ignored (subs : List S) (lim : ℕ) (x : S) (hx : x.spinLike = false) :
    resolve subs lim (some x) none = resolve subs lim none none ∧ resolve subs lim none (some x) = resolve subs lim none none := by
  cases lim <;> simp [resolve, hx]

/-- False for the code, in general: whenever a qubit comes first and a spin which is no qubit comes before every cavity, a `ValueError` is
raised, whether or not there is a cavity. -/
theorem C33_qubit_then_spin_raises (subs : List S) (lim : ℕ) (h : QubitThenSpin subs) : resolve subs (lim + 2) none none = .valueError := by
  obtain ⟨q, hq, hqk, s, hs, hsk⟩ := h
  rw [List.head?_filter] at hs
  obtain ⟨a, b, rfl, -, ha⟩ := find_split hs
  have hss : s.spinLike = true := by simp [S.spinLike, hsk]
  have hqa : a.find? S.spinLike = some q := by
    unfold firstSpin at hq
    rw [List.find?_append] at hq
    cases h' : a.find? S.spinLike with
    | some q' => rw [h'] at hq; simpa using hq
    | none =>
      rw [h'] at hq
      simp only [Option.none_or, List.find?_cons, hss, Option.some.injEq] at hq
      rw [hq] at hsk
      rw [hsk] at hqk
      cases hqk
  obtain ⟨a1, a2, rfl, hqq, ha1⟩ := find_split hqa
  have notcav : ∀ y ∈ a1 ++ q :: a2, y.isCav = false ∧ y.kind ≠ .spin := by
    intro y hy
    have := ha y hy
    simpa using this
  have e : search [] ((a1 ++ q :: a2) ++ s :: b) = [q, s] := by
    rw [List.append_assoc, search_skip a1 (fun y hy => ⟨(notcav y (by simp [hy])).1, ha1 y hy⟩)]
    show search [] (q :: (a2 ++ s :: b)) = _
    have : search [] (q :: (a2 ++ s :: b)) = search [q] (a2 ++ s :: b) := by simp [search, hqq]
    rw [this, search_same q a2, search_pair]
    · simp [hss]
    · simp [instanceOf, hqk, hsk]
    · intro y hy hr
      have := notcav y (by simp [hy])
      simp only [this.1, Bool.false_or, S.spinLike, Bool.or_eq_true, decide_eq_true_eq, this.2, false_or] at hr
      simp [instanceOf, hqk, hr]
  have hsc : s.isCav = false := by simp [S.isCav, hsk]
  show again _ _ = _
  unfold again
  rw [e]
  simp [resolve, hqq, hsc]

/-- **C33 (nothing given, exactly).** The helpers find their systems if and only if the composite has a cavity and a spin or qubit and is not
of the kind `QubitThenSpin`; without a spin they run into the recursion limit, and in all other cases they raise a `ValueError`. -/
theorem C33_composite_iff (subs : List S) (lim : ℕ) :
    ((∃ c q, resolve subs (lim + 2) none none = .ok c q) ↔
      (∃ c ∈ subs, c.isCav = true) ∧ (∃ q ∈ subs, q.spinLike = true) ∧ ¬ QubitThenSpin subs) ∧
    (resolve subs (lim + 2) none none = .recursion ↔ ∀ y ∈ subs, y.spinLike = false) ∧
    resolve subs (lim + 2) none none ≠ .unbound := by
  by_cases hsp : ∀ y ∈ subs, y.spinLike = false
  · have h := C33_recursion subs hsp (lim + 2)
    refine ⟨⟨fun ⟨c, q, e⟩ => (by rw [h] at e; cases e), fun ⟨_, ⟨q, hq, hq'⟩, _⟩ => ?_⟩, ⟨fun _ => hsp, fun _ => h⟩, by rw [h]; simp⟩
    rw [hsp q hq] at hq'
    cases hq'
  · have hsp' : ∃ q ∈ subs, q.spinLike = true := by
      by_contra hc
      apply hsp
      intro y hy
      cases hy' : y.spinLike
      · rfl
      · exact absurd ⟨y, hy, hy'⟩ hc
    by_cases hca : ∃ c ∈ subs, c.isCav = true
    · by_cases hn : QubitThenSpin subs
      · have h := C33_qubit_then_spin_raises subs lim hn
        rw [h]
        exact ⟨⟨fun ⟨_, _, e⟩ => (by cases e), fun h => absurd hn h.2.2⟩, ⟨fun e => (by cases e), fun e => absurd e hsp⟩, by simp⟩
      · obtain ⟨c, hc⟩ := Option.isSome_iff_exists.1 (List.find?_isSome.2 hca)
        obtain ⟨q, hq⟩ := Option.isSome_iff_exists.1 (List.find?_isSome.2 hsp')
        have h := C33_composite_partial subs lim c q hc hq hn
        rw [h]
        exact ⟨⟨fun _ => ⟨hca, hsp', hn⟩, fun _ => ⟨c, q, rfl⟩⟩, ⟨fun e => (by cases e), fun e => absurd e hsp⟩, by simp⟩
    · obtain ⟨x, hx, hx'⟩ := hsp'
      have hnc : ∀ y ∈ subs, y.isCav = false := by
        intro y hy
        cases hy' : y.isCav
        · rfl
        · exact absurd ⟨y, hy, hy'⟩ hca
      have h := (C33_valueError_partial subs lim x hx').2.2 hx hnc
      rw [h]
      exact ⟨⟨fun ⟨_, _, e⟩ => (by cases e), fun h => absurd h.1 hca⟩, ⟨fun e => (by cases e), fun e => absurd e hsp⟩, by simp⟩

/-- Cavity and qubit are found among other systems, in either order; the first ones count. -/
example : resolve [⟨0, .other⟩, ⟨1, .qubit⟩, ⟨2, .qubit⟩, ⟨3, .cavity⟩, ⟨4, .cavity⟩] 9 none none = .ok ⟨3, .cavity⟩ ⟨1, .qubit⟩ ∧
    resolve [⟨3, .cavity⟩, ⟨0, .other⟩, ⟨4, .cavity⟩, ⟨1, .spin⟩] 9 none none = .ok ⟨3, .cavity⟩ ⟨1, .spin⟩ := by decide

/-- Only cavities: `RecursionError`; only a qubit: `ValueError`; two given cavities: unbound variable. -/
example : resolve [⟨0, .cavity⟩, ⟨1, .cavity⟩] 50 none none = .recursion ∧ resolve [⟨0, .qubit⟩] 9 none none = .valueError ∧
    resolve [⟨0, .cavity⟩, ⟨1, .cavity⟩] 9 (some ⟨0, .cavity⟩) (some ⟨1, .cavity⟩) = .unbound := by decide

/-- The two terms of every helper are each other's adjoint (on the cavity: `create`/`destroy`; on the spin: `Jp`/`Jm`, and `Jx`,
`sigmax` are self-adjoint), so the coupling is Hermitian; `Rabi` and `Dicke` need the default operator. -/
def Op.adjoint : Op → Op
  | .create => .destroy | .destroy => .create | .Jp => .Jm | .Jm => .Jp | .Jx => .Jx | .sigmax => .sigmax

/-- **C33 (terms).** `JC` always makes two adjoint terms; `Rabi` and `Dicke` do so exactly when the operator of the spin is `sigmaz` or
`Jz`. -/
theorem C33_terms (h : Helper) (z : Bool) :
    (termsOf h z = none ↔ h ≠ .jc ∧ z = false) ∧
    ∀ l, termsOf h z = some l → ∃ a b, l = [(a, b), (a.adjoint, b.adjoint)] := by
  constructor
  · cases h <;> cases z <;> simp [termsOf]
  · intro l hl
    cases h <;> cases z <;> simp only [termsOf, Option.some.injEq, reduceCtorEq] at hl <;> subst hl <;>
      first
        | exact ⟨.destroy, .Jp, rfl⟩
        | exact ⟨.destroy, .create, rfl⟩
        | exact ⟨.destroy, .sigmax, rfl⟩
        | exact ⟨.destroy, .Jx, rfl⟩

end Verif.Sim.Couplings
