import Verif.Args.Model

/-!
# C90: statements
-/
namespace Verif.Args

/-! ### Specification -/

/-- The term is `t` or one of the terms of a coupling, at any depth. -/
inductive Within : Term → Term → Prop
  | self (t : Term) : Within t t
  | sub {s u t : Term} : u ∈ t.subs → Within s u → Within s t

/-- The same number, or both `None`. -/
def Same (x y : Py) : Prop := number x = number y ∧ (x = .none ↔ y = .none)

/-- The numbers of Python itself, and the two classes of NumPy that are derived from them. -/
def Native : Py → Prop
  | .bool _ | .int _ | .float _ | .complex _ _ | .npFloat _ | .npComplex _ _ => True
  | _ => False

/-! ### Lemmas -/

theorem check_freq (v : Py) : checkCorType v [.int, .float, .complex, .noneType] = .ok v ∧ (v = .none ∨ Native v) ∨
    checkCorType v [.int, .float, .complex, .noneType] = .error .type ∧ ¬ (v = .none ∨ Native v) := by
  cases v <;> simp [checkCorType, isinstance, Native]

theorem zero_same (v : Py) (h : v = .none ∨ Native v) : Same (if isZero v then .int 0 else v) v := by
  cases v with
  | bool b => cases b <;> simp [Same, isZero, number]
  | none => simp [Same, isZero]
  | int z => by_cases e : z = 0 <;> simp [Same, isZero, number, e]
  | float q => by_cases e : q = 0 <;> simp [Same, isZero, number, e]
  | npFloat q => by_cases e : q = 0 <;> simp [Same, isZero, number, e]
  | complex a b => by_cases e : a = 0 <;> by_cases e' : b = 0 <;> simp [Same, isZero, number, e, e']
  | npComplex a b => by_cases e : a = 0 <;> by_cases e' : b = 0 <;> simp [Same, isZero, number, e, e']
  | str s => simp [Native] at h
  | npInt z => simp [Native] at h
  | npFloat32 q => simp [Native] at h
  | list => simp [Native] at h
  | object n => simp [Native] at h

theorem Same.trans {x y z : Py} (h : Same x y) (k : Same y z) : Same x z := ⟨h.1.trans k.1, h.2.trans k.2⟩

theorem differs_false {x y : Py} (h : differs x y = false) : Same x y := by
  cases x with
  | bool b => cases b <;> cases y <;> simp_all [differs, Same, number]
  | _ => cases y <;> simp_all [differs, Same, number]

theorem storeFreq_same (v old : Py) (u : Bool) : Same (storeFreq v old u).1 v := by
  unfold storeFreq
  cases h : differs v old with
  | true => exact ⟨rfl, Iff.rfl⟩
  | false => exact ⟨(differs_false h).1.symm, (differs_false h).2.symm⟩

mutual
theorem setFreq_ok (v : Py) (h : v = .none ∨ Native v) : ∀ t : Term, (setFreq v t).1 = .ok () ∧ ∀ s, Within s (setFreq v t).2 → Same s.freq v
  | .mk f u subs => by
    have hs := setFreqs_ok v h subs
    have e : setFreq v (.mk f u subs) = (.ok (), .mk (storeFreq (if isZero v then .int 0 else v) f u).1
        (storeFreq (if isZero v then .int 0 else v) f u).2 (setFreqs v subs).2) := by
      unfold setFreq
      rcases check_freq v with ⟨hc, -⟩ | ⟨-, hn⟩
      · rw [hc]
        dsimp only
        rw [← hs.1]
      · exact absurd h hn
    rw [e]
    refine ⟨rfl, fun s hw => ?_⟩
    cases hw with
    | self => exact (storeFreq_same _ _ _).trans (zero_same v h)
    | sub hm hw => exact hs.2 _ hm _ hw
theorem setFreqs_ok (v : Py) (h : v = .none ∨ Native v) : ∀ ts : List Term, (setFreqs v ts).1 = .ok () ∧
    ∀ t ∈ (setFreqs v ts).2, ∀ s, Within s t → Same s.freq v
  | [] => ⟨rfl, fun t ht => (by cases ht)⟩
  | t :: ts => by
    have h1 := setFreq_ok v h t
    have h2 := setFreqs_ok v h ts
    have e : setFreqs v (t :: ts) = (.ok (), (setFreq v t).2 :: (setFreqs v ts).2) := by
      rw [setFreqs]
      generalize setFreq v t = a at h1
      obtain ⟨r, t'⟩ := a
      obtain ⟨h1, -⟩ := h1
      subst h1
      dsimp only
      exact Prod.ext h2.1 rfl
    rw [e]
    refine ⟨rfl, fun x hx s hw => ?_⟩
    rcases List.mem_cons.mp hx with rfl | hx
    · exact h1.2 s hw
    · exact h2.2 x hx s hw
end

theorem setFreq_error (v : Py) (h : ¬ (v = .none ∨ Native v)) (t : Term) : setFreq v t = (.error .type, t) := by
  obtain ⟨f, u, subs⟩ := t
  unfold setFreq
  rcases check_freq v with ⟨-, hn⟩ | ⟨hc, -⟩
  · exact absurd hn h
  · rw [hc]

/-! ### Statements -/

/-- A frequency is accepted if and only if it is `None` or a number of Python (or of a NumPy class derived from one).  Then the term and, if it
is a coupling, all terms in it have this frequency.  Otherwise TypeError is raised and nothing has changed. -/
theorem C90_frequency (v : Py) (t : Term) :
    ((v = .none ∨ Native v) → (setFreq v t).1 = .ok () ∧ ∀ s, Within s (setFreq v t).2 → Same s.freq v) ∧
    (¬ (v = .none ∨ Native v) → setFreq v t = (.error .type, t)) :=
  ⟨fun h => setFreq_ok v h t, fun h => setFreq_error v h t⟩

/-- The flag `_paramUpdated` of a term: raised if the frequency becomes another one, as it was otherwise. -/
theorem C90_flag (v : Py) (t : Term) (h : v = .none ∨ Native v) :
    (¬ Same v t.freq → (setFreq v t).2.updated = true) ∧ (Same v t.freq → (setFreq v t).2.updated = t.updated) := by
  obtain ⟨f, u, subs⟩ := t
  have e : (setFreq v (.mk f u subs)).2.updated = (storeFreq (if isZero v then .int 0 else v) f u).2 := by
    unfold setFreq
    rcases check_freq v with ⟨hc, -⟩ | ⟨-, hn⟩
    · rw [hc]; rfl
    · exact absurd h hn
  rw [e]
  have hz := zero_same v h
  generalize (if isZero v then Py.int 0 else v) = w at hz
  unfold storeFreq
  constructor
  · intro hs
    cases hd : differs w f with
    | true => rfl
    | false => exact absurd (⟨hz.1.symm.trans (differs_false hd).1, hz.2.symm.trans (differs_false hd).2⟩ : Same v f) hs
  · intro hs
    by_cases hv : v = .none
    · have hw := hz.2.mpr hv
      have hf := hs.2.mp hv
      change f = .none at hf
      subst hw; subst hf; rfl
    have hw : (number w).isSome := by
      rw [hz.1]
      rcases h with h | h
      · exact absurd h hv
      · cases v <;> simp_all [Native, number]
    have hwf : number w = number f := hz.1.trans hs.1
    have : differs w f = false := by
      obtain ⟨a, ha⟩ := Option.isSome_iff_exists.mp hw
      have hf : number f = some a := hwf ▸ ha
      unfold differs
      split
      · rfl
      · simp [ha, hf]
    rw [this]; rfl

/-- Integers and single precision numbers of NumPy are numbers that are not accepted. -/
theorem C90_numpy_rejected (t : Term) : (∀ z, setFreq (.npInt z) t = (.error .type, t) ∧ (number (.npInt z)).isSome) ∧
    ∀ q, setFreq (.npFloat32 q) t = (.error .type, t) ∧ (number (.npFloat32 q)).isSome :=
  ⟨fun _ => ⟨setFreq_error _ (by simp [Native]) t, rfl⟩, fun _ => ⟨setFreq_error _ (by simp [Native]) t, rfl⟩⟩

/-- The check of `totalHamiltonian` only ever finds a missing frequency: whatever was assigned before, it raises if and only if the frequency is
`None`. -/
theorem C90_hamiltonian (subs : List Term) (u : Bool) (l : List Py) :
    hamiltonianCheck (l.foldl (fun t v => (setFreq v t).2) (.mk .none u subs)) = .error .type ↔
      (l.foldl (fun t v => (setFreq v t).2) (.mk .none u subs)).freq = .none := by
  have key : ∀ (l : List Py) (t : Term), (t.freq = .none ∨ Native t.freq) →
      ((l.foldl (fun t v => (setFreq v t).2) t).freq = .none ∨ Native (l.foldl (fun t v => (setFreq v t).2) t).freq) := by
    intro l
    induction l with
    | nil => exact fun t h => h
    | cons v l ih =>
      intro t ht
      apply ih
      by_cases h : v = .none ∨ Native v
      · obtain ⟨f, u, subs⟩ := t
        have e : (setFreq v (.mk f u subs)).2.freq = (storeFreq (if isZero v then .int 0 else v) f u).1 := by
          unfold setFreq
          rcases check_freq v with ⟨hc, -⟩ | ⟨-, hn⟩
          · rw [hc]; rfl
          · exact absurd h hn
        rw [e]
        have hw : (if isZero v then Py.int 0 else v) = .none ∨ Native (if isZero v then Py.int 0 else v) := by
          by_cases hz : isZero v = true
          · rw [if_pos hz]; exact .inr trivial
          · rw [if_neg hz]; exact h
        generalize (if isZero v then Py.int 0 else v) = w at hw
        unfold storeFreq
        by_cases hd : differs w f = true
        · rw [if_pos hd]; exact hw
        · rw [if_neg hd]; exact ht
      · have e : (setFreq v t).2 = t := by rw [setFreq_error v h]
        show (setFreq v t).2.freq = .none ∨ Native (setFreq v t).2.freq
        rw [e]; exact ht
  have h := key l (.mk .none u subs) (.inl rfl)
  generalize l.foldl (fun t v => (setFreq v t).2) (.mk .none u subs) = t at h
  unfold hamiltonianCheck
  generalize t.freq = f at h
  cases f <;> simp_all [checkCorType, isinstance, Native]

theorem sweepPoints_error (t : Term) (v : Py) (vs : List Py) (h : ¬ (v = .none ∨ Native v)) : sweepPoints t (v :: vs) = ([], .error .type, t) := by
  unfold sweepPoints
  rw [setFreq_error v h]

/-- A sweep over the frequency: if all values are accepted, every point is computed with its value. -/
theorem C90_sweep_list (t : Term) (vs : List Py) (h : ∀ v ∈ vs, v = .none ∨ Native v) :
    (sweepPoints t vs).2.1 = .ok () ∧ (sweepPoints t vs).1.length = vs.length ∧
    ∀ (i : Nat) (v : Py), vs[i]? = some v → ∃ p, (sweepPoints t vs).1[i]? = some p ∧ Same p.freq v := by
  induction vs generalizing t with
  | nil => exact ⟨rfl, rfl, fun i v hv => (by cases i <;> cases hv)⟩
  | cons v vs ih =>
    obtain ⟨h1, h2⟩ := setFreq_ok v (h v List.mem_cons_self) t
    obtain ⟨k1, k2, k3⟩ := ih (setFreq v t).2 fun x hx => h x (List.mem_cons_of_mem _ hx)
    have e : sweepPoints t (v :: vs) = ((setFreq v t).2 :: (sweepPoints (setFreq v t).2 vs).1, (sweepPoints (setFreq v t).2 vs).2.1,
        (sweepPoints (setFreq v t).2 vs).2.2) := by
      conv_lhs => unfold sweepPoints
      generalize setFreq v t = a at h1
      obtain ⟨r, t'⟩ := a
      subst h1
      rfl
    rw [e]
    refine ⟨k1, by simp [k2], fun i x hx => ?_⟩
    cases i with
    | zero =>
      cases hx
      exact ⟨_, rfl, h2 _ (.self _)⟩
    | succ i => exact k3 i x hx

/-- A sweep over the frequency from integers `sweepMin`, `sweepMax`, `sweepStep` raises TypeError at its first point; nothing has been assigned. -/
theorem C90_integer_range_raises (t : Term) (a b h : ℤ) (vs : List Py) (hv : (Source.range (.int a) (.int b) (.int h)).values = some vs)
    (hne : vs ≠ []) : sweepPoints t vs = ([], .error .type, t) := by
  simp only [Source.values, Option.map_eq_some_iff] at hv
  obtain ⟨l, -, rfl⟩ := hv
  cases l with
  | nil => exact absurd rfl hne
  | cons q l => exact sweepPoints_error t _ _ (by simp [elem, Native])

/-- With a floating point number among them, the same range is swept. -/
theorem C90_float_range (t : Term) (a b h : Sweep.Num) (hf : ∃ q, a = .float q ∨ b = .float q ∨ h = .float q) (vs : List Py)
    (hv : (Source.range a b h).values = some vs) : (sweepPoints t vs).2.1 = .ok () ∧ (sweepPoints t vs).1.length = vs.length := by
  have h' : ∀ v ∈ vs, v = .none ∨ Native v := by
    simp only [Source.values, Option.map_eq_some_iff] at hv
    obtain ⟨l, -, rfl⟩ := hv
    intro v hm
    obtain ⟨x, -, rfl⟩ := List.mem_map.mp hm
    obtain ⟨q, hq⟩ := hf
    right
    rcases a with a | a <;> rcases b with b | b <;> rcases h with h | h <;> simp_all [elem, Native]
  exact ⟨(C90_sweep_list t vs h').1, (C90_sweep_list t vs h').2.1⟩

/-- Both happen for the same numbers: 0, 1, 2 as integers and with a step of `1.0`. -/
theorem C90_integer_range : ∃ vs ws : List Py, (Source.range (.int 0) (.int 2) (.int 1)).values = some vs ∧
    (Source.range (.int 0) (.int 2) (.float 1)).values = some ws ∧ vs.map number = ws.map number ∧ vs.length = 3 ∧
    (∀ t, sweepPoints t vs = ([], .error .type, t)) ∧ ∀ t, (sweepPoints t ws).2.1 = .ok () := by
  have hv : (Source.range (.int 0) (.int 2) (.int 1)).values = some [.npInt 0, .npInt 1, .npInt 2] := by
    have : Sweep.arange Sweep.double 0 (Sweep.double (2 + 1)) 1 = some [0, 1, 2] := by decide +kernel
    simp only [Source.values, Sweep.Num.val, Int.cast_zero, Int.cast_ofNat, Int.cast_one, this]
    decide +kernel
  have hw : (Source.range (.int 0) (.int 2) (.float 1)).values = some [.npFloat 0, .npFloat 1, .npFloat 2] := by
    have : Sweep.arange Sweep.double 0 (Sweep.double (2 + 1)) 1 = some [0, 1, 2] := by decide +kernel
    simp only [Source.values, Sweep.Num.val, Int.cast_zero, Int.cast_ofNat, this]
    rfl
  exact ⟨_, _, hv, hw, by simp [number], rfl, fun t => C90_integer_range_raises t 0 2 1 _ hv (by simp),
    fun t => (C90_float_range t _ _ _ ⟨1, .inr (.inr rfl)⟩ _ hw).1⟩

/-- A dimension has to be a positive integer of Python or NumPy; `True` counts as 1.  Other types raise TypeError, other integers ValueError. -/
theorem C90_dimension (d : Py) :
    (dimensionCheck d = .ok d ↔ (∃ z : ℤ, 0 < z ∧ (d = .int z ∨ d = .npInt z)) ∨ d = .bool true) ∧
    (dimensionCheck d = .error .value ↔ (∃ z : ℤ, z ≤ 0 ∧ (d = .int z ∨ d = .npInt z)) ∨ d = .bool false) ∧
    (dimensionCheck d = .ok d ∨ dimensionCheck d = .error .value ∨ dimensionCheck d = .error .type) := by
  cases d with
  | int z => by_cases h : 0 < z <;> simp [dimensionCheck, checkCorType, isinstance, positive, h]; omega
  | npInt z => by_cases h : 0 < z <;> simp [dimensionCheck, checkCorType, isinstance, positive, h]; omega
  | bool b => cases b <;> simp [dimensionCheck, checkCorType, isinstance, positive]
  | _ => simp [dimensionCheck, checkCorType, isinstance]

/-- The decorated function is called if and only if the position exists and the argument there has one of the types. -/
theorem C90_decorator (e : Expected) (a : AttrName) (args : List Py) : typeCheck e a args = .ok () ↔
    ∃ (z : ℤ) (v : Py), a = .index z ∧ (0 ≤ z ∧ args[z.toNat]? = some v ∨ z < 0 ∧ ∃ i : ℕ, (i : ℤ) = args.length + z ∧ args[i]? = some v) ∧
      ((∃ t, e = .one t ∧ isinstance v t = true) ∨ ∃ l, e = .many l ∧ ∃ t ∈ l, isinstance v t = true) := by
  have hget : ∀ (z : ℤ) (v : Py), tupleGet args z = some v ↔
      (0 ≤ z ∧ args[z.toNat]? = some v ∨ z < 0 ∧ ∃ i : ℕ, (i : ℤ) = args.length + z ∧ args[i]? = some v) := by
    intro z v
    unfold tupleGet
    by_cases hz : 0 ≤ z
    · rw [if_pos hz]
      constructor
      · exact fun h => .inl ⟨hz, h⟩
      · rintro (h | h)
        · exact h.2
        · omega
    · rw [if_neg hz]
      by_cases hn : -z ≤ args.length
      · rw [if_pos hn]
        constructor
        · exact fun h => .inr ⟨by omega, _, by omega, h⟩
        · rintro (h | ⟨-, i, hi, h⟩)
          · exact absurd h.1 hz
          · have : (args.length + z).toNat = i := by omega
            rw [this]; exact h
      · rw [if_neg hn]
        constructor
        · intro h; cases h
        · rintro (h | ⟨-, i, hi, -⟩)
          · exact absurd h.1 hz
          · omega
  cases a with
  | str s => simp [typeCheck]
  | other => simp [typeCheck]
  | index z =>
    simp only [typeCheck]
    constructor
    · intro h
      by_cases hz : z > args.length
      · rw [if_pos hz] at h; cases h
      · rw [if_neg hz] at h
        cases hg : tupleGet args z with
        | none => rw [hg] at h; cases h
        | some v =>
          rw [hg] at h
          refine ⟨z, v, rfl, (hget z v).mp hg, ?_⟩
          cases e with
          | other => cases h
          | one t =>
            left
            refine ⟨t, rfl, ?_⟩
            by_contra hc
            dsimp only at h
            rw [if_neg hc] at h; cases h
          | many l =>
            right
            refine ⟨l, rfl, ?_⟩
            by_contra hc
            dsimp only at h
            rw [if_neg (by simpa using hc)] at h; cases h
    · rintro ⟨z', v, e1, hv, ht⟩
      cases e1
      have hz : ¬ z > args.length := by
        rcases hv with ⟨h0, hv⟩ | ⟨h0, -⟩
        · have := (List.getElem?_eq_some_iff.mp hv).1; omega
        · omega
      rw [if_neg hz, (hget z v).mpr hv]
      rcases ht with ⟨t, rfl, ht⟩ | ⟨l, rfl, t, hm, ht⟩
      · simp [ht]
      · dsimp only
        rw [if_pos (List.any_eq_true.mpr ⟨t, hm, ht⟩)]

/-- A position that does not exist raises IndexError only if it is the first one behind the arguments, or negative; further behind, making the
message raises TypeError. -/
theorem C90_decorator_index (e : Expected) (z : ℤ) (args : List Py) :
    (typeCheck e (.index z) args = .error .index ↔ z = args.length ∨ z < -args.length) ∧
    (args.length < z → typeCheck e (.index z) args = .error .type) := by
  have hg : tupleGet args z = Option.none ↔ (args.length : ℤ) ≤ z ∨ z < -args.length := by
    unfold tupleGet
    by_cases hz : 0 ≤ z
    · rw [if_pos hz, List.getElem?_eq_none_iff]; omega
    · rw [if_neg hz]
      by_cases hn : -z ≤ args.length
      · rw [if_pos hn, List.getElem?_eq_none_iff]; omega
      · rw [if_neg hn]; simp only [true_iff]; omega
  refine ⟨?_, fun h => by rw [typeCheck, if_pos h]⟩
  unfold typeCheck
  by_cases hz : z > args.length
  · simp only [if_pos hz, Except.error.injEq, reduceCtorEq, false_iff]; omega
  · dsimp only
    rw [if_neg hz]
    cases ht : tupleGet args z with
    | none =>
      have := hg.mp ht
      simp only [true_iff]; omega
    | some v =>
      have hn : ¬ ((args.length : ℤ) ≤ z ∨ z < -args.length) := fun h => by rw [hg.mpr h] at ht; cases ht
      have hi : ¬ (z = args.length ∨ z < -args.length) := by omega
      simp only [hi, iff_false]
      cases e with
      | other => simp
      | one t => dsimp only; by_cases h : isinstance v t = true <;> simp [h]
      | many l =>
        dsimp only
        by_cases h : l.any (isinstance v) = true
        · rw [if_pos h]; simp
        · rw [if_neg h]; simp

/-- Naming the argument, which the decorator offers, makes every call raise. -/
theorem C90_decorator_named (e : Expected) (s : String) (args : List Py) : typeCheck e (.str s) args = .error .type := rfl

/-- A key assigned through `key` is a string, anything else raises TypeError and leaves the key; `sweepKey` takes anything. -/
theorem C90_key (old v : Py) : ((∃ s, v = .str s) → setKey old (.key v) = (.ok (), v)) ∧
    ((¬ ∃ s, v = .str s) → setKey old (.key v) = (.error .type, old)) ∧ setKey old (.sweepKey v) = (.ok (), v) := by
  refine ⟨?_, ?_, rfl⟩
  · rintro ⟨s, rfl⟩; rfl
  · intro h
    cases v with
    | str s => exact absurd ⟨s, rfl⟩ h
    | _ => rfl

/-- The name is the first string assigned; nothing changes it. -/
theorem C90_name (l : List Py) : (l.foldl (fun n v => (setName n v).2) Option.none) =
    (l.filterMap fun v => match v with | .str s => some s | _ => Option.none).head? := by
  have h1 : ∀ (l : List Py) (s : String), l.foldl (fun n v => (setName n v).2) (some s) = some s := by
    intro l s
    induction l with
    | nil => rfl
    | cons v l ih =>
      have : (setName (some s) v).2 = some s := by cases v <;> rfl
      rw [List.foldl_cons, this, ih]
  induction l with
  | nil => rfl
  | cons v l ih =>
    rw [List.foldl_cons]
    cases v with
    | str s =>
      have : (setName Option.none (.str s)).2 = some s := rfl
      rw [this, h1]; rfl
    | _ => exact ih

/-! ### Examples -/

/-- A coupling of two systems: the frequency 3 reaches all terms. -/
example : (setFreq (.int 3) (.mk .none false [.mk .none false [], .mk (.float 2) false []])).2.subs.map Term.freq = [.int 3, .int 3] := by
  decide +kernel
/-- The first two values are assigned, then a NumPy integer raises. -/
example : (sweepPoints (.mk .none true []) [.int 1, .npFloat (5 / 2), .npInt 4, .int 7]).1.length = 2 ∧
    (sweepPoints (.mk .none true []) [.int 1, .npFloat (5 / 2), .npInt 4, .int 7]).2.2.freq = .npFloat (5 / 2) := by decide +kernel
example : dimensionCheck (.bool true) = .ok (.bool true) ∧ dimensionCheck (.float 3) = .error .type ∧ dimensionCheck (.npInt (-1)) = .error .value :=
  ⟨rfl, rfl, rfl⟩
example : [Py.int 4, .str "qubit", .str "other"].foldl (fun n v => (setName n v).2) Option.none = some "qubit" := by
  rw [C90_name]; rfl
example : typeCheck (.many [.str, .noneType]) (.index (-1)) [.int 1, .str "a"] = .ok () ∧
    typeCheck (.one .str) (.index 2) [.int 1, .str "a"] = .error .index ∧ typeCheck (.one .str) (.index 3) [.int 1, .str "a"] = .error .type := by
  decide +kernel

end Verif.Args
