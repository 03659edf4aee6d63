import Verif.SpinJ.Model
import Verif.Toolbox.Spin

/-!
# The spin quantum number of a system (C104): properties
-/
namespace Verif.SpinJ
open Verif.Toolbox Verif.Tree

/-- The number that is assigned. -/
def Val.num : Val → Option ℚ
  | .int n => some n
  | .float q => some q
  | _ => none

/-- The spin of the largest multiple of one half that is at most `q`. -/
def halfFloor (q : ℚ) : ℚ := (⌊2 * q⌋ : ℤ) / 2

theorem trunc_nonneg {q : ℚ} (h : 0 ≤ q) : trunc (2 * q + 1) = ⌊2 * q⌋ + 1 := by
  unfold trunc
  rw [if_pos (by linarith)]
  exact Int.floor_add_one _

theorem trunc_pos_iff {q : ℚ} : 0 < trunc (2 * q + 1) ↔ 0 ≤ q := by
  constructor
  · intro h
    by_contra hq
    have hq := lt_of_not_ge hq
    unfold trunc at h
    by_cases h1 : 0 ≤ 2 * q + 1
    · rw [if_pos h1] at h
      have : ⌊2 * q + 1⌋ < 1 := by
        rw [Int.floor_lt]; push_cast; linarith
      omega
    · rw [if_neg h1] at h
      have : ⌈2 * q + 1⌉ ≤ 0 := by
        rw [Int.ceil_le]; push_cast; linarith
      omega
  · intro h
    rw [trunc_nonneg h]
    have : 0 ≤ ⌊2 * q⌋ := Int.floor_nonneg.mpr (by linarith)
    omega

theorem dimOf_num {v : Val} {q : ℚ} (h : v.num = some q) : dimOf v = .ok (trunc (2 * q + 1)) := by
  cases v with
  | int n =>
    simp only [Val.num, Option.some.injEq] at h
    subst h
    have : trunc (2 * (n : ℚ) + 1) = 2 * n + 1 := by
      have e : (2 * (n : ℚ) + 1) = ((2 * n + 1 : ℤ) : ℚ) := by push_cast; ring
      unfold trunc
      rw [e, Int.floor_intCast, Int.ceil_intCast]
      simp
    rw [this]; rfl
  | float p =>
    simp only [Val.num, Option.some.injEq] at h
    subst h; rfl
  | nan => cases h
  | inf => cases h
  | complex => cases h
  | other => cases h

/-- The first term that is asked has no Pauli operator, as for a system with `Jz` as its first term. -/
def noPauli (s : Spin) : Prop := ∀ d : ℕ, d ≠ 0 → Pauli.accepts d s.terms = true

theorem setDimInt_ok {s : Spin} (hp : noPauli s) {d : ℤ} (hd : 0 < d) : setDimInt s d = .ok { s with dim := d } := by
  unfold setDimInt
  rw [if_pos hd, if_pos (hp d.toNat (by omega))]
  simp

/-- A system whose first term is not a Pauli operator of it, and any other terms and composites. -/
theorem noPauli_of_first {s : Spin} (i : ℕ) (ts : List Pauli.Term) (rest : List (List Pauli.Term))
    (h : s.terms = ([(i, false)] :: ts) :: rest) : noPauli s := by
  intro d hd
  rw [h]
  simp [Pauli.accepts, Pauli.consistent, Pauli.raises, hd]

/-- **C104** (partial: multiples of one half that are not negative, and systems without Pauli operators) the system has this spin and
the dimension `2j + 1`; frequency and terms stay. -/
theorem C104_spin_partial (s : Spin) (hp : noPauli s) (v : Val) (n : ℕ) (hv : v.num = some ((n : ℚ) / 2)) :
    ∃ s', setJ s v = .ok s' ∧ jValue s' = (n : ℚ) / 2 ∧ s'.dim = n + 1 ∧ s'.freq = s.freq ∧ s'.terms = s.terms := by
  have h0 : (0 : ℚ) ≤ (n : ℚ) / 2 := by positivity
  have e : trunc (2 * ((n : ℚ) / 2) + 1) = n + 1 := by
    rw [trunc_nonneg h0]
    have : 2 * ((n : ℚ) / 2) = ((n : ℤ) : ℚ) := by push_cast; ring
    rw [this, Int.floor_intCast]
  refine ⟨{ s with dim := n + 1 }, ?_, ?_, rfl, rfl, rfl⟩
  · unfold setJ
    rw [dimOf_num hv, e]
    exact setDimInt_ok hp (by omega)
  · simp [jValue]

/-- **C104** (newer class) a number is refused, with `ValueError`, exactly if it is negative. -/
theorem C104_refused_iff (s : Spin) (hn : s.older = false) (hp : noPauli s) (v : Val) (q : ℚ) (hv : v.num = some q) :
    (setJ s v = .error .value ↔ q < 0) ∧ ((∃ s', setJ s v = .ok s') ↔ 0 ≤ q) := by
  have key : setJ s v = setDimInt s (trunc (2 * q + 1)) := by
    unfold setJ; rw [dimOf_num hv]; rfl
  rw [key]
  by_cases h : 0 ≤ q
  · rw [setDimInt_ok hp (trunc_pos_iff.mpr h)]
    refine ⟨⟨fun h => (by cases h), fun h2 => absurd h (not_le.mpr h2)⟩, ⟨fun _ => h, fun _ => ⟨_, rfl⟩⟩⟩
  · have h' : ¬ 0 < trunc (2 * q + 1) := fun h2 => h (trunc_pos_iff.mp h2)
    have e : setDimInt s (trunc (2 * q + 1)) = .error .value := by
      unfold setDimInt; rw [hn, if_neg h']; simp
    rw [e]
    refine ⟨⟨fun _ => lt_of_not_ge h, fun _ => rfl⟩, ⟨fun ⟨_, h2⟩ => (by cases h2), fun h2 => absurd h2 h⟩⟩

/-- **C104** (negation) every other positive number is accepted and rounded down to a multiple of one half: what is read is what was
assigned exactly if it is such a multiple. -/
theorem C104_rounded (s : Spin) (hp : noPauli s) (v : Val) (q : ℚ) (hv : v.num = some q) (h0 : 0 ≤ q) :
    ∃ s', setJ s v = .ok s' ∧ jValue s' = halfFloor q ∧ (jValue s' = q ↔ ∃ n : ℕ, q = (n : ℚ) / 2) := by
  have e : setJ s v = .ok { s with dim := ⌊2 * q⌋ + 1 } := by
    unfold setJ
    rw [dimOf_num hv, trunc_nonneg h0]
    have : 0 ≤ ⌊2 * q⌋ := Int.floor_nonneg.mpr (by linarith)
    exact setDimInt_ok hp (by omega)
  have hj : jValue { s with dim := ⌊2 * q⌋ + 1 } = halfFloor q := by
    simp [jValue, halfFloor]
  refine ⟨_, e, hj, ?_⟩
  rw [hj]
  unfold halfFloor
  constructor
  · intro h
    have hn : 0 ≤ ⌊2 * q⌋ := Int.floor_nonneg.mpr (by linarith)
    refine ⟨⌊2 * q⌋.toNat, ?_⟩
    have : ((⌊2 * q⌋.toNat : ℕ) : ℚ) = ((⌊2 * q⌋ : ℤ) : ℚ) := by
      have := Int.toNat_of_nonneg hn
      exact_mod_cast this
    rw [this, h]
  · rintro ⟨n, rfl⟩
    have : 2 * ((n : ℚ) / 2) = ((n : ℤ) : ℚ) := by push_cast; ring
    rw [this, Int.floor_intCast]
    push_cast; rfl

/-- **C104** values that are no finite real numbers are refused, for every system. -/
theorem C104_no_number (s : Spin) (v : Val) (hv : v.num = none) :
    setJ s v = .error (match v with
      | .nan => .value
      | .inf => .overflow
      | _ => .type) := by
  cases v <;> first | rfl | cases hv

/-- **C104** the Hamiltonian after the assignment has the levels `frequency * m` for `m = j, j-1, ..., -j` on the diagonal; for `j = 0`
there is none, but a `ValueError`. -/
theorem C104_levels (s : Spin) (hp : noPauli s) (v : Val) (n : ℕ) (hv : v.num = some ((n : ℚ) / 2)) :
    ∃ s', setJ s v = .ok s' ∧ (n = 0 → ham s' = .error .value) ∧
      (n ≠ 0 → ∃ M : Op (n + 1), ham s' = .ok ⟨n + 1, M⟩ ∧
        ∀ a b, M a b = if a = b then s.freq * ((n : ℂ) / 2 - (a : ℕ)) else 0) := by
  obtain ⟨s', h1, _, hd, hf, _⟩ := C104_spin_partial s hp v n hv
  refine ⟨s', h1, ?_, ?_⟩
  · rintro rfl
    simp [ham, hd]
  · intro hn
    have hq : (1 / 2 * ((s'.dim : ℚ) - 1)) = (n : ℚ) / 2 := by rw [hd]; push_cast; ring
    have hval : ValidSpin ((n : ℚ) / 2) false := Or.inl ⟨rfl, n, rfl⟩
    obtain ⟨k, hk, hk2⟩ := spinArgs_valid hval
    have hkn : k = n := by
      have : ((n : ℚ) / 2) = (k : ℚ) / 2 := by simpa [spinOf] using hk2
      have h3 : (n : ℚ) = k := by linarith
      exact_mod_cast h3.symm
    subst hkn
    have hlen : (spinArgs ((k : ℚ) / 2) false).1 = k + 1 := by rw [hk]
    have hent := C42_Jz_entries ((k : ℚ) / 2) false hval
    have hham : ham s' = .ok ⟨_, s'.freq • Jz ((k : ℚ) / 2) false⟩ := by
      unfold ham
      rw [if_neg (by rw [hd]; omega), hq]
    rw [hham, hf]
    generalize Jz ((k : ℚ) / 2) false = J at hent ⊢
    generalize (spinArgs ((k : ℚ) / 2) false).1 = d at J hent hlen
    subst hlen
    refine ⟨_, rfl, fun a b => ?_⟩
    rw [Matrix.smul_apply, hent a b]
    by_cases hab : a = b
    · simp [hab, spinOf]
    · simp [hab]

theorem assign_older {s s' : Spin} {a : Key × Val} (h : assign s a = .ok s') : s'.older = s.older ∧ s'.freq = s.freq ∧ s'.terms = s.terms ∧
    (s.older = false → 0 < s'.dim) := by
  have key : ∀ d : ℤ, setDimInt s d = .ok s' → s'.older = s.older ∧ s'.freq = s.freq ∧ s'.terms = s.terms ∧ (s.older = false → 0 < s'.dim) := by
    intro d hd
    unfold setDimInt at hd
    by_cases ho : s.older = true
    · rw [if_pos ho] at hd
      cases hd
      exact ⟨rfl, rfl, rfl, fun h => by simp [ho] at h⟩
    · rw [if_neg ho] at hd
      by_cases h1 : 0 < d
      · rw [if_pos h1] at hd
        by_cases h2 : Pauli.accepts d.toNat s.terms = true
        · rw [if_pos h2] at hd
          cases hd
          exact ⟨rfl, rfl, rfl, fun _ => h1⟩
        · rw [if_neg h2] at hd; cases hd
      · rw [if_neg h1] at hd; cases hd
  obtain ⟨k, v⟩ := a
  cases k with
  | jValue =>
    simp only [assign, setJ] at h
    cases hv : dimOf v with
    | error e => rw [hv] at h; cases h
    | ok d => rw [hv] at h; exact key d h
  | dimension =>
    simp only [assign] at h
    cases v with
    | int d => exact key d h
    | float q => cases h
    | nan => cases h
    | inf => cases h
    | complex => cases h
    | other => cases h

/-- **C104** (newer class) whatever is assigned to `jValue` and `dimension`, the spin that is read is a multiple of one half, not
negative, and belongs to the dimension; frequency and terms never change. -/
theorem C104_always (s : Spin) (hn : s.older = false) (h0 : 0 < s.dim) (as : List (Key × Val)) :
    (∃ n : ℕ, jValue (run s as) = (n : ℚ) / 2 ∧ (run s as).dim = n + 1) ∧ (run s as).freq = s.freq ∧ (run s as).terms = s.terms := by
  have h : (run s as).older = false ∧ 0 < (run s as).dim ∧ (run s as).freq = s.freq ∧ (run s as).terms = s.terms := by
    unfold run
    induction as generalizing s with
    | nil => exact ⟨hn, h0, rfl, rfl⟩
    | cons a as ih =>
      simp only [List.foldl_cons]
      cases ha : assign s a with
      | error e => exact ih s hn h0
      | ok s' =>
        obtain ⟨h1, h2, h3, h4⟩ := assign_older ha
        obtain ⟨g1, g2, g3, g4⟩ := ih s' (h1.trans hn) (h4 hn)
        exact ⟨g1, g2, g3.trans h2, g4.trans h3⟩
  obtain ⟨_, h1, h2, h3⟩ := h
  refine ⟨⟨((run s as).dim - 1).toNat, ?_, by omega⟩, h2, h3⟩
  unfold jValue
  have : ((((run s as).dim - 1).toNat : ℕ) : ℤ) = (run s as).dim - 1 := Int.toNat_of_nonneg (by omega)
  have h4 : ((((run s as).dim - 1).toNat : ℕ) : ℚ) = (((run s as).dim - 1 : ℤ) : ℚ) := by exact_mod_cast this
  rw [h4]; push_cast; rfl

/-- **C104** (negation, older class) every number is accepted: for a negative multiple of one half the spin is this negative number and
the dimension is not positive. -/
theorem C104_old_negative (s : Spin) (ho : s.older = true) (v : Val) (n : ℕ) (hn : n ≠ 0) (hv : v.num = some (-(n : ℚ) / 2)) :
    ∃ s', setJ s v = .ok s' ∧ jValue s' = -(n : ℚ) / 2 ∧ s'.dim = 1 - n ∧ s'.dim ≤ 0 := by
  have e : trunc (2 * (-(n : ℚ) / 2) + 1) = 1 - n := by
    have : 2 * (-(n : ℚ) / 2) + 1 = ((1 - n : ℤ) : ℚ) := by push_cast; ring
    rw [this]
    unfold trunc
    rw [Int.floor_intCast, Int.ceil_intCast]; simp
  refine ⟨{ s with dim := 1 - n }, ?_, ?_, rfl, ?_⟩
  · unfold setJ
    rw [dimOf_num hv, e]
    show setDimInt s (1 - n) = _
    unfold setDimInt
    rw [if_pos ho]
  · simp [jValue]
  · show (1 - n : ℤ) ≤ 0
    omega

/-- **C104** (negation, older class) other negative numbers are rounded towards zero down to -1/2, and those above -1/2 are rounded away
from zero, to -1/2 as well (dimension zero). -/
theorem C104_old_rounded (s : Spin) (ho : s.older = true) (v : Val) (q : ℚ) (hv : v.num = some q) (hq : q < 0) :
    ∃ s', setJ s v = .ok s' ∧ (q ≤ -1 / 2 → jValue s' = (⌈2 * q⌉ : ℤ) / 2) ∧ (-1 / 2 < q → jValue s' = -1 / 2 ∧ s'.dim = 0) := by
  refine ⟨{ s with dim := trunc (2 * q + 1) }, ?_, fun h => ?_, fun h => ?_⟩
  · unfold setJ
    rw [dimOf_num hv]
    show setDimInt s _ = _
    unfold setDimInt
    rw [if_pos ho]
  · have e : trunc (2 * q + 1) = ⌈2 * q⌉ + 1 := by
      rcases eq_or_lt_of_le h with rfl | h
      · have e1 : 2 * (-1 / 2 : ℚ) + 1 = ((0 : ℤ) : ℚ) := by norm_num
        have e2 : 2 * (-1 / 2 : ℚ) = ((-1 : ℤ) : ℚ) := by norm_num
        rw [e1, e2, Int.ceil_intCast]
        unfold trunc
        rw [Int.floor_intCast, Int.ceil_intCast]; simp
      · unfold trunc
        rw [if_neg (by linarith), Int.ceil_add_one]
    simp [jValue, e]
  · have e : trunc (2 * q + 1) = 0 := by
      unfold trunc
      rw [if_pos (by linarith), Int.floor_eq_iff]
      push_cast
      constructor <;> linarith
    rw [e]
    norm_num [jValue]

theorem setKwargs_append (l m : List (Key × Val)) : ∀ s : Spin, setKwargs s (l ++ m) = (setKwargs s l).bind fun s' => setKwargs s' m := by
  induction l with
  | nil => intro s; rfl
  | cons a l ih =>
    intro s
    simp only [List.cons_append, setKwargs]
    cases ha : assign s a with
    | error e => rfl
    | ok s' => exact ih s'

theorem setKwargs_terms (l : List (Key × Val)) : ∀ s s' : Spin, setKwargs s l = .ok s' → s'.older = s.older ∧ s'.freq = s.freq ∧ s'.terms = s.terms := by
  induction l with
  | nil => intro s s' h; cases h; exact ⟨rfl, rfl, rfl⟩
  | cons a l ih =>
    intro s s' h
    simp only [setKwargs] at h
    cases ha : assign s a with
    | error e => rw [ha] at h; cases h
    | ok s1 =>
      rw [ha] at h
      obtain ⟨h1, h2, h3, _⟩ := assign_older ha
      obtain ⟨g1, g2, g3⟩ := ih s1 s' h
      exact ⟨g1.trans h1, g2.trans h2, g3.trans h3⟩

/-- **C104** the constructor of spins: the last keyword decides.  After any keywords that raise nothing, `jValue=j` gives the spin `j` and
`dimension=d` the dimension `d`; keywords that raise do so whatever follows.  Without keywords the dimension is one in the newer class. -/
theorem C104_constructor (older : Bool) (f : ℂ) (kw : List (Key × Val)) :
    (∃ s, newSpin false f [] = .ok s ∧ s.dim = 1) ∧
    (∀ s0, newSpin older f kw = .ok s0 →
      (∀ v (n : ℕ), v.num = some ((n : ℚ) / 2) →
        ∃ s, newSpin older f (kw ++ [(.jValue, v)]) = .ok s ∧ jValue s = (n : ℚ) / 2 ∧ s.dim = n + 1 ∧ s.freq = f) ∧
      (∀ d : ℤ, 0 < d → ∃ s, newSpin older f (kw ++ [(.dimension, .int d)]) = .ok s ∧ s.dim = d ∧ s.freq = f)) ∧
    ∀ e more, newSpin older f kw = .error e → newSpin older f (kw ++ more) = .error e := by
  refine ⟨⟨_, rfl, rfl⟩, fun s0 h0 => ?_, fun e more he => ?_⟩
  · obtain ⟨_, hf, ht⟩ := setKwargs_terms kw _ s0 h0
    have hp : noPauli s0 := noPauli_of_first 0 [] [] ht
    constructor
    · intro v n hv
      obtain ⟨s, h1, h2, h3, h4, _⟩ := C104_spin_partial s0 hp v n hv
      refine ⟨s, ?_, h2, h3, h4.trans hf⟩
      unfold newSpin at h0 ⊢
      rw [setKwargs_append, h0]
      simp [Except.bind, setKwargs, assign, h1, bind]
    · intro d hd
      refine ⟨{ s0 with dim := d }, ?_, rfl, hf⟩
      unfold newSpin at h0 ⊢
      rw [setKwargs_append, h0]
      simp [Except.bind, setKwargs, assign, setDim, setDimInt_ok hp hd, bind]
  · unfold newSpin at he ⊢
    rw [setKwargs_append, he]; rfl

/-- **C104** a qubit made without keywords, or with `dimension`, has the spin one half, whatever the dimension is. -/
theorem C104_qubit (older : Bool) (f : ℂ) :
    (∃ s, newQubit older f [] = .ok s ∧ s.dim = 2 ∧ jValue s = 1 / 2) ∧
    ∀ v, newQubit older f [(.dimension, v)] = newQubit older f [] := by
  have e : newQubit older f [] = .ok ⟨older, 2, f, [[[(0, false)]]]⟩ := by
    cases older <;> simp [newQubit, withTwo, setKwargs, assign, setDim, setDimInt, bind, Except.bind, Pauli.accepts, Pauli.consistent, Pauli.raises]
  refine ⟨⟨_, e, rfl, ?_⟩, fun v => rfl⟩
  norm_num [jValue]

/-- **C104** (negation) the spin given to the constructor of a qubit is used or not, depending on the order of the keywords:
`Qubit(jValue=v)` and `Qubit(jValue=v, dimension=d)` are two-dimensional, `Qubit(dimension=d, jValue=v)` has the spin `v`. -/
theorem C104_qubit_keywords (older : Bool) (f : ℂ) (v d : Val) (n : ℕ) (hv : v.num = some ((n : ℚ) / 2)) :
    (∃ s, newQubit older f [(.jValue, v)] = .ok s ∧ jValue s = 1 / 2) ∧
    (∃ s, newQubit older f [(.jValue, v), (.dimension, d)] = .ok s ∧ jValue s = 1 / 2) ∧
    ∃ s, newQubit older f [(.dimension, d), (.jValue, v)] = .ok s ∧ jValue s = (n : ℚ) / 2 := by
  have hnp : ∀ z : ℤ, noPauli ⟨older, z, f, [[[(0, false)]]]⟩ := fun z => noPauli_of_first 0 [] [] rfl
  have h2 : ∀ z : ℤ, setDim ⟨older, z, f, [[[(0, false)]]]⟩ (.int 2) = .ok ⟨older, 2, f, [[[(0, false)]]]⟩ := fun z =>
    setDimInt_ok (hnp z) (by omega)
  have hj : ∀ z : ℤ, setJ ⟨older, z, f, [[[(0, false)]]]⟩ v = .ok ⟨older, n + 1, f, [[[(0, false)]]]⟩ := by
    intro z
    have h0 : (0 : ℚ) ≤ (n : ℚ) / 2 := by positivity
    have e : trunc (2 * ((n : ℚ) / 2) + 1) = n + 1 := by
      rw [trunc_nonneg h0]
      have : 2 * ((n : ℚ) / 2) = ((n : ℤ) : ℚ) := by push_cast; ring
      rw [this, Int.floor_intCast]
    unfold setJ
    rw [dimOf_num hv, e]
    exact setDimInt_ok (hnp z) (by omega)
  have half : jValue ⟨older, 2, f, [[[(0, false)]]]⟩ = 1 / 2 := by norm_num [jValue]
  refine ⟨⟨⟨older, 2, f, [[[(0, false)]]]⟩, ?_, half⟩, ⟨⟨older, 2, f, [[[(0, false)]]]⟩, ?_, half⟩,
    ⟨⟨older, n + 1, f, [[[(0, false)]]]⟩, ?_, by simp [jValue]⟩⟩
  · simp [newQubit, withTwo, setKwargs, assign, hj, h2, bind, Except.bind]
  · simp [newQubit, withTwo, setKwargs, assign, hj, h2, bind, Except.bind]
  · simp [newQubit, withTwo, setKwargs, assign, hj, h2, bind, Except.bind]

/-- **C104** (negation) a qubit can be given any other spin later. -/
theorem C104_qubit_changed (older : Bool) (f : ℂ) (v : Val) (n : ℕ) (hv : v.num = some ((n : ℚ) / 2)) :
    ∃ q, newQubit older f [] = .ok q ∧ ∃ s, setJ q v = .ok s ∧ jValue s = (n : ℚ) / 2 := by
  have e : newQubit older f [] = .ok ⟨older, 2, f, [[[(0, false)]]]⟩ := by
    cases older <;> simp [newQubit, withTwo, setKwargs, assign, setDim, setDimInt, bind, Except.bind, Pauli.accepts, Pauli.consistent, Pauli.raises]
  obtain ⟨s, h1, h2, _⟩ := C104_spin_partial ⟨older, 2, f, [[[(0, false)]]]⟩ (noPauli_of_first 0 [] [] rfl) v n hv
  exact ⟨_, e, s, h1, h2⟩

/-- **C104** (negation) if the first term is a Pauli operator of the system, every spin except 0 and 1/2 is refused (newer class). -/
theorem C104_pauli (s : Spin) (hn : s.older = false) (i : ℕ) (ts : List Pauli.Term) (rest : List (List Pauli.Term))
    (ht : s.terms = ([(i, true)] :: ts) :: rest) (v : Val) (n : ℕ) (hv : v.num = some ((n : ℚ) / 2)) :
    setJ s v = .error .value ↔ 2 ≤ n := by
  have h0 : (0 : ℚ) ≤ (n : ℚ) / 2 := by positivity
  have e : trunc (2 * ((n : ℚ) / 2) + 1) = n + 1 := by
    rw [trunc_nonneg h0]
    have : 2 * ((n : ℚ) / 2) = ((n : ℤ) : ℚ) := by push_cast; ring
    rw [this, Int.floor_intCast]
  have hs : setJ s v = setDimInt s (n + 1) := by
    unfold setJ; rw [dimOf_num hv, e]; rfl
  have ht2 : ((n : ℤ) + 1).toNat = n + 1 := by omega
  rw [hs]
  unfold setDimInt
  rw [hn, if_pos (show (0 : ℤ) < n + 1 by omega), ht2, ht]
  have ha : Pauli.accepts (n + 1) (([(i, true)] :: ts) :: rest) = decide (n < 2) := by
    by_cases h2 : n < 2
    · have : n = 0 ∨ n = 1 := by omega
      rcases this with rfl | rfl <;> simp [Pauli.accepts, Pauli.consistent, Pauli.raises]
    · have h3 : n ≠ 1 := by omega
      have h4 : n ≠ 0 := by omega
      simp [Pauli.accepts, Pauli.consistent, Pauli.raises, h2, h3, h4]
  rw [ha]
  by_cases h2 : n < 2
  · simp [h2]
  · simp [h2]; omega

/-- Spin 3/2; 0.7 becomes 1/2; `Qubit(dimension=7, jValue=1)` has spin 1; -3 is refused. -/
example : noPauli ⟨false, 1, 2, [[[(0, false)]]]⟩ ∧ (Val.float (3 / 2)).num = some (((3 : ℕ) : ℚ) / 2) ∧ halfFloor (7 / 10) = 1 / 2 := by
  refine ⟨noPauli_of_first 0 [] [] rfl, by simp [Val.num], ?_⟩
  have : ⌊(2 : ℚ) * (7 / 10)⌋ = 1 := by rw [Int.floor_eq_iff]; norm_num
  simp [halfFloor, this]
example : ∃ s, newQubit false 1 [(.dimension, .int 7), (.jValue, .int 1)] = .ok s ∧ jValue s = 1 := by
  obtain ⟨s, h1, h2⟩ := (C104_qubit_keywords false 1 (.int 1) (.int 7) 2 (by simp [Val.num])).2.2
  exact ⟨s, h1, by rw [h2]; norm_num⟩
example : setJ ⟨false, 3, 1, [[[(0, false)]]]⟩ (.int (-3)) = .error .value :=
  ((C104_refused_iff ⟨false, 3, 1, [[[(0, false)]]]⟩ rfl (noPauli_of_first 0 [] [] rfl) (.int (-3)) (-3) (by simp [Val.num])).1).2 (by norm_num)
example : ∃ s, newSpin false 3 ([] ++ [(.jValue, .float (5 / 2))]) = .ok s ∧ jValue s = ((5 : ℕ) : ℚ) / 2 ∧ s.dim = 5 + 1 ∧ s.freq = 3 :=
  ((C104_constructor false 3 []).2.1 _ rfl).1 (.float (5 / 2)) 5 (by simp [Val.num])
/-- In the older class -0.7 and -0.3 are both read as -0.5. -/
example (s : Spin) (ho : s.older = true) : (∃ s', setJ s (.float (-7 / 10)) = .ok s' ∧ jValue s' = -1 / 2) ∧
    ∃ s', setJ s (.float (-3 / 10)) = .ok s' ∧ jValue s' = -1 / 2 := by
  obtain ⟨s1, h1, h2, _⟩ := C104_old_rounded s ho (.float (-7 / 10)) (-7 / 10) rfl (by norm_num)
  obtain ⟨s3, h3, _, h4⟩ := C104_old_rounded s ho (.float (-3 / 10)) (-3 / 10) rfl (by norm_num)
  refine ⟨⟨s1, h1, ?_⟩, ⟨s3, h3, (h4 (by norm_num)).1⟩⟩
  have : ⌈(2 : ℚ) * (-7 / 10)⌉ = -1 := by rw [Int.ceil_eq_iff]; norm_num
  rw [h2 (by norm_num), this]; norm_num

end Verif.SpinJ
