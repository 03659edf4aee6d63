import Mathlib.Data.List.Nodup
import Mathlib.Data.List.Induction
import Mathlib.Tactic.ByContra
/-!
# C31: can a system contain itself?

Here systems are objects with identity (numbers), so the same object may be added anywhere, any number of times, and cycles can be
expressed.  Model of `addSubSys` (`QSystem.py:382-409`) with its circularity test, and of the recursive `dimension` getter.
Simplifications: only `__compSys`, `__dimension` and `subSys` are part of the state; of `__addSub` only the calls of the `dimension`
getter are kept, because they may exceed the recursion limit.
-/
namespace Verif.Tree.Heap

/-- The relevant attributes of a `QuantumSystem` object. -/
structure Obj where
  kind : Option Bool
  dim  : Nat
  subs : List Nat
deriving Repr, DecidableEq

/-- All objects. -/
abbrev Store := Nat → Obj

/-- Every object as created by `QuantumSystem()`. -/
def fresh : Store := fun _ => ⟨none, 1, []⟩

def put (h : Store) (i : Nat) (o : Obj) : Store := fun j => if j = i then o else h j

/-- The product of the values a partial function gives on a list, `none` as soon as one of them is missing. -/
def prodM (f : Nat → Option Nat) : List Nat → Option Nat
  | [] => some 1
  | i :: r =>
    match f i, prodM f r with
    | some x, some y => some (x * y)
    | _, _ => none

/-- The `dimension` getter (`QSystem.py:227-239`) with a recursion limit; `none` is a `RecursionError`. -/
def dimension (h : Store) : Nat → Nat → Option Nat
  | 0, _ => none
  | n + 1, i => if (h i).kind = some true then prodM (dimension h n) (h i).subs else some (h i).dim

/-- `a.addSubSys(b)` (`QSystem.py:382-409`) under the recursion limit `lim`; `none`: the `ValueError` of the circularity test, the
`TypeError` for a single system, or a `RecursionError` from the dimensions needed in `__addSub`. -/
def add (lim : Nat) (h : Store) (a b : Nat) : Option Store :=
  if a ∈ (h b).subs then none
  else if (h a).kind = some false then none
  else if b ∈ (h a).subs then some h
  else if (h a).subs ≠ [] ∧ ((dimension h lim b).isNone ∨ (prodM (dimension h lim) (h a).subs).isNone) then none
  else some (put h a ⟨some true, (h a).dim, (h a).subs ++ [b]⟩)

/-- The dimension setter of object `a` (`QSystem.py:247-263`). -/
def setDim (h : Store) (a d : Nat) : Option Store :=
  let k := match (h a).kind with | none => some (!(h a).subs.isEmpty) | some v => some v
  if k = some true then some (put h a ⟨k, (h a).dim, (h a).subs⟩)
  else if d = 0 then none
  else some (put h a ⟨k, d, (h a).subs⟩)

/-- What a user does. -/
inductive Op where
  | add (a b : Nat)
  | dim (a d : Nat)
deriving Repr, DecidableEq

/-- One action; exceptions end the history. -/
def step (lim : Nat) (h : Store) : Op → Option Store
  | .add a b => add lim h a b
  | .dim a d => setDim h a d

/-- A history of actions. -/
def run (lim : Nat) : Store → List Op → Option Store
  | h, [] => some h
  | h, o :: r => match step lim h o with | none => none | some h' => run lim h' r

/-- `j` is a direct or indirect sub-system of `i`. -/
inductive Inside (h : Store) : Nat → Nat → Prop where
  | direct {i j : Nat} : j ∈ (h i).subs → Inside h i j
  | deeper {i k j : Nat} : k ∈ (h i).subs → Inside h k j → Inside h i j

/-! ### The claim is false -/

/-- **C31 is false of the code**: a system can be added to itself, in one call, and its dimension then cannot be computed with any
recursion limit. -/
theorem C31_self (lim : Nat) : ∃ h, run lim fresh [.add 0 0] = some h ∧ Inside h 0 0 ∧ ∀ n, dimension h n 0 = none := by
  refine ⟨put fresh 0 ⟨some true, 1, [0]⟩, rfl, .direct (by simp [put]), fun n => ?_⟩
  induction n with
  | zero => rfl
  | succ n ih => simp [dimension, put, prodM] at ih ⊢; simp [ih]

/-- Longer cycles are not noticed either: `a` contains `b`, `b` contains `c`, and `a` is then added to `c`. -/
theorem C31_cycle (lim : Nat) : ∃ h, run lim fresh [.add 0 1, .add 1 2, .add 2 0] = some h ∧
    Inside h 0 0 ∧ Inside h 1 1 ∧ Inside h 2 2 ∧ ∀ n, dimension h n 0 = none := by
  refine ⟨_, rfl, ?_, ?_, ?_, ?_⟩
  · exact .deeper (k := 1) (by simp [put]) (.deeper (k := 2) (by simp [put]) (.direct (by simp [put])))
  · exact .deeper (k := 2) (by simp [put]) (.deeper (k := 0) (by simp [put]) (.direct (by simp [put])))
  · exact .deeper (k := 0) (by simp [put]) (.deeper (k := 1) (by simp [put]) (.direct (by simp [put])))
  · have key : ∀ n, dimension (put (put (put fresh 0 ⟨some true, 1, [1]⟩) 1 ⟨some true, 1, [2]⟩) 2 ⟨some true, 1, [0]⟩) n 0 = none ∧
        dimension (put (put (put fresh 0 ⟨some true, 1, [1]⟩) 1 ⟨some true, 1, [2]⟩) 2 ⟨some true, 1, [0]⟩) n 1 = none ∧
        dimension (put (put (put fresh 0 ⟨some true, 1, [1]⟩) 1 ⟨some true, 1, [2]⟩) 2 ⟨some true, 1, [0]⟩) n 2 = none := by
      intro n
      induction n with
      | zero => exact ⟨rfl, rfl, rfl⟩
      | succ n ih => simp [dimension, put, prodM] at ih ⊢; simp [ih]
    exact fun n => (key n).1

/-! ### What remains true -/

theorem add_subs {lim : Nat} {h h' : Store} {a b : Nat} (e : add lim h a b = some h') :
    a ∉ (h b).subs ∧ ((h' = h ∧ b ∈ (h a).subs) ∨ (h' = put h a ⟨some true, (h a).dim, (h a).subs ++ [b]⟩)) := by
  unfold add at e
  by_cases h1 : a ∈ (h b).subs
  · simp [h1] at e
  · refine ⟨h1, ?_⟩
    by_cases h2 : (h a).kind = some false
    · simp [h1, h2] at e
    · by_cases h3 : b ∈ (h a).subs
      · left
        simp [h1, h2, h3] at e
        exact ⟨e.symm, h3⟩
      · right
        simp only [h1, h2, h3, if_false] at e
        by_cases h4 : (h a).subs ≠ [] ∧ ((dimension h lim b).isNone ∨ (prodM (dimension h lim) (h a).subs).isNone)
        · rw [if_pos h4] at e; cases e
        · rw [if_neg h4] at e
          exact (Option.some.inj e).symm

theorem setDim_subs {h h' : Store} {a d : Nat} (e : setDim h a d = some h') : ∀ i, (h' i).subs = (h i).subs := by
  have : ∃ k x, h' = put h a ⟨k, x, (h a).subs⟩ := by
    unfold setDim at e
    split at e
    all_goals
      simp only at e
      split at e
      · exact ⟨_, _, (Option.some.inj e).symm⟩
      · split at e
        · cases e
        · exact ⟨_, _, (Option.some.inj e).symm⟩
  obtain ⟨k, x, rfl⟩ := this
  intro i
  by_cases hi : i = a <;> simp [put, hi]

/-- No two different systems contain each other directly. -/
def NoMutual (h : Store) : Prop := ∀ a b, a ≠ b → a ∈ (h b).subs → b ∉ (h a).subs

theorem noMutual_step {lim : Nat} {h h' : Store} {o : Op} (hn : NoMutual h) (e : step lim h o = some h') : NoMutual h' := by
  cases o with
  | add a b =>
    obtain ⟨h1, h2⟩ := add_subs e
    rcases h2 with ⟨rfl, _⟩ | rfl
    · exact hn
    · intro x y hxy hx hy
      by_cases hya : y = a
      · subst hya
        have hx' : x ≠ y := hxy
        simp only [put, if_true, hx', if_false, List.mem_append, List.mem_singleton] at hx hy
        rcases hx with hx | rfl
        · exact hn x y hxy hx hy
        · exact h1 hy
      · simp only [put, hya, if_false] at hx
        by_cases hxa : x = a
        · subst hxa
          simp only [put, if_true, List.mem_append, List.mem_singleton] at hy
          rcases hy with hy | rfl
          · exact hn x y hxy hx hy
          · exact h1 hx
        · simp only [put, hxa, if_false] at hy
          exact hn x y hxy hx hy
  | dim a d =>
    intro x y hxy hx hy
    rw [setDim_subs e] at hx hy
    exact hn x y hxy hx hy

/-- **C31**, what the test does ensure, for every history of additions: two different systems never contain each other directly.
Missing from the full claim: the test looks neither at the system itself (`C31_self`) nor deeper (`C31_cycle`). -/
theorem C31_direct_partial (lim : Nat) : ∀ (ops : List Op) (h : Store), run lim fresh ops = some h →
    ∀ a b, a ≠ b → a ∈ (h b).subs → b ∉ (h a).subs := by
  have key : ∀ (ops : List Op) (h₀ h : Store), NoMutual h₀ → run lim h₀ ops = some h → NoMutual h := by
    intro ops
    induction ops with
    | nil => intro h₀ h hn e; simp only [run, Option.some.injEq] at e; subst e; exact hn
    | cons o r ih =>
      intro h₀ h hn e
      simp only [run] at e
      cases hs : step lim h₀ o with
      | none => simp [hs] at e
      | some h₁ =>
        simp only [hs] at e
        exact ih h₁ h (noMutual_step hn hs) e
  intro ops h e
  exact key ops fresh h (fun a b _ hx => by simp [fresh] at hx) e

example : run 10 fresh [.add 0 1, .add 1 0] = none := by rfl

/-- A history in which a system is never put inside itself or inside something it contains. -/
def Careful (lim : Nat) : Store → List Op → Prop
  | _, [] => True
  | h, .add a b :: r => a ≠ b ∧ ¬ Inside h b a ∧ (∀ h', step lim h (.add a b) = some h' → Careful lim h' r)
  | h, .dim a d :: r => ∀ h', step lim h (.dim a d) = some h' → Careful lim h' r

/-- Everything about an object can be computed from its sub-systems in finitely many steps. -/
abbrev Grounded (h : Store) (i : Nat) : Prop := Acc (fun y x => y ∈ (h x).subs) i

theorem inside_snoc {h : Store} {i k j : Nat} (hik : Inside h i k) (hj : j ∈ (h k).subs) : Inside h i j := by
  induction hik with
  | direct h1 => exact .deeper h1 (.direct hj)
  | deeper h1 _ ih => exact .deeper h1 (ih hj)

theorem grounded_not_inside {h : Store} {i : Nat} (hg : Grounded h i) : ¬ Inside h i i := by
  induction hg with
  | intro x _ ih =>
    intro hx
    cases hx with
    | direct h1 => exact ih x h1 (.direct h1)
    | deeper h1 h2 => exact ih _ h1 (inside_snoc h2 h1)

theorem grounded_put {h : Store} {a b : Nat} {o : Obj} (hg : ∀ i, Grounded h i) (hab : a ≠ b) (hin : ¬ Inside h b a)
    (ho : ∀ y, y ∈ o.subs → y ∈ (h a).subs ∨ y = b) : ∀ i, Grounded (put h a o) i := by
  have below : ∀ y, Grounded h y → (y = b ∨ Inside h b y) → Grounded (put h a o) y := by
    intro y hy
    induction hy with
    | intro y _ ih =>
      intro hb
      have hya : y ≠ a := by
        rintro rfl
        rcases hb with rfl | hb
        · exact hab rfl
        · exact hin hb
      refine Acc.intro y fun z hz => ?_
      simp only [put, hya, if_false] at hz
      refine ih z hz (Or.inr ?_)
      rcases hb with rfl | hb
      · exact .direct hz
      · exact inside_snoc hb hz
  intro i
  have := hg i
  induction this with
  | intro x _ ih =>
    refine Acc.intro x fun z hz => ?_
    by_cases hxa : x = a
    · subst hxa
      simp only [put, if_true] at hz
      rcases ho z hz with hz | rfl
      · exact ih z hz
      · exact below z (hg z) (Or.inl rfl)
    · simp only [put, hxa, if_false] at hz
      exact ih z hz

theorem grounded_congr {h h' : Store} (e : ∀ i, (h' i).subs = (h i).subs) (hg : ∀ i, Grounded h i) : ∀ i, Grounded h' i := by
  intro i
  have := hg i
  induction this with
  | intro x _ ih =>
    refine Acc.intro x fun z hz => ih z ?_
    rw [e] at hz; exact hz

theorem grounded_run (lim : Nat) : ∀ (ops : List Op) (h₀ h : Store), (∀ i, Grounded h₀ i) → Careful lim h₀ ops →
    run lim h₀ ops = some h → ∀ i, Grounded h i
  | [], h₀, h, hg, _, e => by
    simp only [run, Option.some.injEq] at e
    subst e; exact hg
  | .add a b :: r, h₀, h, hg, hc, e => by
    simp only [run] at e
    cases hs : step lim h₀ (.add a b) with
    | none => simp [hs] at e
    | some h₁ =>
      simp only [hs] at e
      simp only [Careful] at hc
      refine grounded_run lim r h₁ h ?_ (hc.2.2 h₁ hs) e
      rcases (add_subs hs).2 with ⟨rfl, _⟩ | rfl
      · exact hg
      · exact grounded_put hg hc.1 hc.2.1 (by simp)
  | .dim a d :: r, h₀, h, hg, hc, e => by
    simp only [run] at e
    cases hs : step lim h₀ (.dim a d) with
    | none => simp [hs] at e
    | some h₁ =>
      simp only [hs] at e
      simp only [Careful] at hc
      exact grounded_run lim r h₁ h (grounded_congr (setDim_subs hs) hg) (hc h₁ hs) e

theorem prodM_mono {f g : Nat → Option Nat} (hfg : ∀ i x, f i = some x → g i = some x) :
    ∀ (l : List Nat) (x : Nat), prodM f l = some x → prodM g l = some x
  | [], x, h => h
  | i :: r, x, h => by
    simp only [prodM] at h ⊢
    cases hi : f i with
    | none => simp [hi] at h
    | some y =>
      cases hr : prodM f r with
      | none => simp [hi, hr] at h
      | some z =>
        simp only [hi, hr] at h
        simp [hfg i y hi, prodM_mono hfg r z hr, h]

theorem dimension_mono (h : Store) : ∀ (n m i x : Nat), n ≤ m → dimension h n i = some x → dimension h m i = some x
  | 0, _, _, _, _, e => by simp [dimension] at e
  | n + 1, 0, _, _, hle, _ => by omega
  | n + 1, m + 1, i, x, hle, e => by
    unfold dimension at e ⊢
    by_cases hk : (h i).kind = some true
    · simp only [hk, if_true] at e ⊢
      exact prodM_mono (fun j y => dimension_mono h n m j y (by omega)) _ x e
    · simp only [hk, if_false] at e ⊢
      exact e

theorem dimension_exists {h : Store} {i : Nat} (hg : Grounded h i) : ∃ n x, dimension h n i = some x := by
  induction hg with
  | intro x _ ih =>
    have key : ∀ l : List Nat, (∀ y ∈ l, ∃ n x, dimension h n y = some x) → ∃ n x, prodM (dimension h n) l = some x := by
      intro l
      induction l with
      | nil => exact fun _ => ⟨0, 1, rfl⟩
      | cons y r ihl =>
        intro hy
        obtain ⟨n, v, hv⟩ := hy y (by simp)
        obtain ⟨m, u, hu⟩ := ihl fun z hz => hy z (by simp [hz])
        refine ⟨max n m, v * u, ?_⟩
        simp only [prodM, dimension_mono h n (max n m) y v (Nat.le_max_left ..) hv]
        rw [prodM_mono (fun j z => dimension_mono h m (max n m) j z (Nat.le_max_right ..)) r u hu]
    by_cases hk : (h x).kind = some true
    · obtain ⟨n, v, hv⟩ := key (h x).subs ih
      exact ⟨n + 1, v, by simp [dimension, hk, hv]⟩
    · exact ⟨1, (h x).dim, by simp [dimension, hk]⟩

/-- **C31**, for users who never put a system inside itself or inside a system it contains: no system contains itself, at any depth,
and every dimension can be computed with a large enough recursion limit. -/
theorem C31_careful_partial (lim : Nat) (ops : List Op) (h : Store) (hc : Careful lim fresh ops)
    (e : run lim fresh ops = some h) :
    ∀ i, ¬ Inside h i i ∧ ∃ n x, ∀ m, n ≤ m → dimension h m i = some x := by
  intro i
  have hg := grounded_run lim ops fresh h (fun i => Acc.intro i fun y hy => by simp [fresh] at hy) hc e i
  refine ⟨grounded_not_inside hg, ?_⟩
  obtain ⟨n, x, hx⟩ := dimension_exists hg
  exact ⟨n, x, fun m hm => dimension_mono h n m i x hm hx⟩

/-- The same system twice and a nested composite: dimension `2 * (3 * 2) = 12`. -/
example : (run 10 fresh [.dim 1 2, .dim 2 3, .add 3 2, .add 3 1, .add 0 1, .add 0 3]).map (fun h => dimension h 10 0) = some (some 12) := by
  rfl

example : Careful 10 fresh [.dim 1 2, .add 0 1] := by
  simp only [Careful]
  refine fun h' e => ⟨by decide, fun hi => ?_, fun _ _ => trivial⟩
  have hs : (h' 1).subs = [] := by rw [setDim_subs (show setDim fresh 1 2 = some h' from e) 1]; rfl
  cases hi with
  | direct h1 => rw [hs] at h1; cases h1
  | deeper h1 _ => rw [hs] at h1; cases h1

/-! ### What the attributes are -/

theorem run_snoc (lim : Nat) (o : Op) : ∀ (ops : List Op) (h₀ : Store), run lim h₀ (ops ++ [o]) = (run lim h₀ ops).bind fun h => step lim h o
  | [], h₀ => by
    simp only [List.nil_append, run, Option.bind_some]
    cases step lim h₀ o <;> rfl
  | p :: ops, h₀ => by
    simp only [List.cons_append, run]
    cases step lim h₀ p with
    | none => rfl
    | some h₁ => exact run_snoc lim o ops h₁

/-- The dimension given last to `i` (1 if none was given). -/
def lastDim (i : Nat) (ops : List Op) : Nat :=
  (ops.reverse.findSome? fun o => match o with | .dim a d => if a = i then some d else none | _ => none).getD 1

theorem lastDim_snoc (i : Nat) (ops : List Op) (o : Op) :
    lastDim i (ops ++ [o]) = match o with | .dim a d => if a = i then d else lastDim i ops | _ => lastDim i ops := by
  cases o with
  | add a b => simp [lastDim]
  | dim a d =>
    by_cases e : a = i
    · simp [lastDim, e]
    · simp [lastDim, e]

/-- C31: in any history without an exception, an object contains exactly what was added to it, each once; it is composite exactly if something
was added to it, and single if it was only given dimensions, and then its dimension is the one given last, a positive number. -/
theorem C31_objects (lim : Nat) (ops : List Op) (h : Store) (e : run lim fresh ops = some h) (i : Nat) :
    (h i).subs.Nodup ∧ (∀ b, b ∈ (h i).subs ↔ .add i b ∈ ops) ∧
    ((h i).kind = some true ↔ ∃ b, .add i b ∈ ops) ∧ ((h i).kind = some false ↔ (∃ d, .dim i d ∈ ops) ∧ ∀ b, .add i b ∉ ops) ∧
    ((h i).subs = [] → 0 < lastDim i ops ∧ ∀ n, dimension h (n + 1) i = some (lastDim i ops)) := by
  have key : (h i).subs.Nodup ∧ (∀ b, b ∈ (h i).subs ↔ .add i b ∈ ops) ∧
      ((h i).subs ≠ [] → (h i).kind = some true) ∧
      ((h i).subs = [] → (h i).kind ≠ some true ∧ ((h i).kind = some false ↔ ∃ d, .dim i d ∈ ops) ∧ (h i).dim = lastDim i ops ∧
        0 < lastDim i ops) := by
    induction ops using List.reverseRecOn generalizing h with
    | nil =>
      simp only [run, Option.some.injEq] at e
      subst e
      simp [fresh, lastDim]
    | append_singleton ops o ih =>
      rw [run_snoc] at e
      obtain ⟨h₁, e1, e2⟩ := Option.bind_eq_some_iff.mp e
      obtain ⟨i1, i2, i3, i4⟩ := ih h₁ e1
      cases o with
      | add a b =>
        obtain ⟨hne, hadd⟩ := add_subs (show add lim h₁ a b = some h from e2)
        have hk : (h₁ a).kind ≠ some false := by
          intro hk
          simp [step, add, hk] at e2
        by_cases ea : i = a
        · subst ea
          by_cases hb : b ∈ (h₁ i).subs
          · have hh : h = h₁ := by simpa [step, add, hne, hk, hb] using e2.symm
            subst hh
            refine ⟨i1, fun b' => ?_, i3, fun h0 => ?_⟩
            · rw [i2 b']
              simp only [List.mem_append, List.mem_singleton, Op.add.injEq, true_and]
              refine ⟨Or.inl, ?_⟩
              rintro (h | rfl)
              · exact h
              · exact (i2 b').mp hb
            · rw [h0] at hb; cases hb
          · have hh : h = put h₁ i ⟨some true, (h₁ i).dim, (h₁ i).subs ++ [b]⟩ := by
              rcases hadd with ⟨-, hb'⟩ | hh
              · exact absurd hb' hb
              · exact hh
            subst hh
            simp only [put, if_true]
            refine ⟨List.Nodup.append i1 (by simp) (by simpa using hb), fun b' => ?_, fun _ => by simp, fun h0 => by simp at h0⟩
            rw [List.mem_append, i2 b']
            simp
        · have hh : h i = h₁ i := by
            rcases hadd with ⟨rfl, -⟩ | rfl
            · rfl
            · simp [put, ea]
          rw [hh, lastDim_snoc]
          refine ⟨i1, fun b' => ?_, i3, fun h0 => ?_⟩
          · rw [i2 b']; simp [ea]
          · obtain ⟨j1, j2, j3, j4⟩ := i4 h0
            refine ⟨j1, ?_, j3, j4⟩
            rw [j2]; simp
      | dim a d =>
        have e2 : setDim h₁ a d = some h := e2
        have hs := setDim_subs e2
        by_cases ea : i = a
        · subst ea
          rw [hs]
          refine ⟨i1, fun b' => ?_, fun h0 => ?_, fun h0 => ?_⟩
          · rw [i2 b']; simp
          · have hk := i3 h0
            simp only [setDim, hk, if_true, Option.some.injEq] at e2
            subst e2
            simp [put]
          · obtain ⟨j1, -, -, -⟩ := i4 h0
            have hd : d ≠ 0 ∧ h = put h₁ i ⟨some false, d, (h₁ i).subs⟩ := by
              unfold setDim at e2
              cases hk : (h₁ i).kind with
              | none =>
                rw [hk, h0] at e2
                by_cases h0' : d = 0
                · simp [h0'] at e2
                · simp only [List.isEmpty_nil, Bool.not_true, Option.some.injEq, Bool.false_eq_true, if_false, h0'] at e2
                  exact ⟨h0', by rw [← e2, h0]⟩
              | some v =>
                cases v with
                | true => exact absurd hk j1
                | false =>
                  rw [hk] at e2
                  by_cases h0' : d = 0
                  · simp [h0'] at e2
                  · simp only [Option.some.injEq, Bool.false_eq_true, if_false, h0'] at e2
                    exact ⟨h0', e2.symm⟩
            obtain ⟨hd, rfl⟩ := hd
            rw [lastDim_snoc]
            simp [put]
            omega
        · have hh : h i = h₁ i := by
            unfold setDim at e2
            dsimp only at e2
            by_cases c1 : (match (h₁ a).kind with | none => some (!(h₁ a).subs.isEmpty) | some v => some v) = some true
            · rw [if_pos c1] at e2; cases e2; simp [put, ea]
            · rw [if_neg c1] at e2
              by_cases c2 : d = 0
              · rw [if_pos c2] at e2; cases e2
              · rw [if_neg c2] at e2; cases e2; simp [put, ea]
          rw [hh, lastDim_snoc]
          refine ⟨i1, fun b' => ?_, i3, fun h0 => ?_⟩
          · rw [i2 b']; simp
          · obtain ⟨j1, j2, j3, j4⟩ := i4 h0
            have ea' : ¬ a = i := fun h => ea h.symm
            refine ⟨j1, ?_, by simp [ea', j3], by simp [ea', j4]⟩
            rw [j2]; simp [ea]
  obtain ⟨k1, k2, k3, k4⟩ := key
  have hex : (h i).subs = [] ↔ ∀ b, .add i b ∉ ops := by
    rw [List.eq_nil_iff_forall_not_mem]
    exact forall_congr' fun b => not_congr (k2 b)
  refine ⟨k1, k2, ?_, ?_, fun h0 => ⟨(k4 h0).2.2.2, fun n => ?_⟩⟩
  · by_cases h0 : (h i).subs = []
    · exact iff_of_false (k4 h0).1 (by simpa using hex.mp h0)
    · refine iff_of_true (k3 h0) ?_
      by_contra hc
      exact h0 (hex.mpr fun b hb => hc ⟨b, hb⟩)
  · by_cases h0 : (h i).subs = []
    · rw [(k4 h0).2.1]
      exact ⟨fun hd => ⟨hd, hex.mp h0⟩, fun hd => hd.1⟩
    · refine iff_of_false (by rw [k3 h0]; simp) fun hd => h0 (hex.mpr hd.2)
  · obtain ⟨j1, -, j3, -⟩ := k4 h0
    simp [dimension, j1, j3]

example : ∃ h, run 9 fresh [.dim 1 2, .dim 1 3, .add 0 1, .add 0 1, .dim 0 7] = some h ∧ (h 0).subs = [1] ∧ (h 0).kind = some true ∧
    dimension h 9 0 = some 3 := ⟨_, rfl, rfl, rfl, rfl⟩

end Verif.Tree.Heap
