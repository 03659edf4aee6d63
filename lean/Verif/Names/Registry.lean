import Verif.Names.Dict

/-!
# Default names, the registry and lookup by name or alias (C21, C22, C23)
-/
namespace Verif.Names

/-! ## Default names -/

/-- A string does not end with a digit. -/
def noDigitEnd (s : String) : Prop := s.toList.getLast?.any Char.isDigit = false
instance (s : String) : Decidable (noDigitEnd s) := by unfold noDigitEnd; infer_instance

/-- The classes have different labels which cannot be confused and each class has its own counters. -/
structure GoodTable (T : List Cls) : Prop where
  own : ∀ c ∈ T, c.own = true
  labels : (T.map Cls.label).Nodup
  digits : ∀ c ∈ T, noDigitEnd c.label
  under : ∀ c ∈ T, ∀ c' ∈ T, c'.label ≠ "_" ++ c.label

theorem digits_split {p p' : List Char} {n n' : Nat} (hp : p.getLast?.any Char.isDigit = false)
    (hp' : p'.getLast?.any Char.isDigit = false) (h : p ++ Nat.toDigits 10 n = p' ++ Nat.toDigits 10 n') : p = p' ∧ n = n' := by
  have hd : ∀ m, ∀ c ∈ Nat.toDigits 10 m, c.isDigit = true := fun m c hc =>
    Nat.isDigit_of_mem_toDigits (by omega) (by omega) hc
  have key : ∀ (q q' : List Char) (a b : List Char), q.getLast?.any Char.isDigit = false →
      (∀ c ∈ b, c.isDigit = true) → q ++ a = q' ++ b → q.length ≤ q'.length := by
    intro q q' a b hq hb he
    by_contra hlt
    have h1 := congrArg (fun l => l[q.length - 1]?) he
    rw [List.getElem?_append_left (by omega), List.getElem?_append_right (by omega)] at h1
    rw [← List.getLast?_eq_getElem?] at h1
    rw [h1] at hq
    cases hg : b[q.length - 1 - q'.length]? with
    | none =>
      rw [hg] at h1
      rw [List.getLast?_eq_none_iff] at h1
      subst h1; simp at hlt
    | some c =>
      rw [hg] at hq
      have := hb c (List.mem_of_getElem? hg)
      simp [this] at hq
  have l1 := key p p' _ _ hp (hd n') h
  have l2 := key p' p _ _ hp' (hd n) h.symm
  obtain ⟨e1, e2⟩ := List.append_inj h (by omega)
  refine ⟨e1, ?_⟩
  have := congrArg (fun l => Nat.ofDigitChars 10 l 0) e2
  simpa [Nat.ofDigitChars_ten_toDigits] using this

theorem defaultName_inj {l l' : String} {i i' : Bool} {n n' : Nat} (hl : noDigitEnd l) (hl' : noDigitEnd l')
    (h1 : l' ≠ "_" ++ l) (h2 : l ≠ "_" ++ l') (h : defaultName l i n = defaultName l' i' n') : l = l' ∧ i = i' ∧ n = n' := by
  have hpre : ∀ (l : String) (i : Bool), noDigitEnd l →
      ((if i then "_" else "") ++ l).toList.getLast?.any Char.isDigit = false := by
    intro l i hl
    cases i
    · simpa [noDigitEnd] using hl
    · unfold noDigitEnd at hl
      simp only [if_true, String.toList_append, List.getLast?_append]
      cases hg : l.toList.getLast? with
      | none => decide
      | some c => rw [hg] at hl; simpa using hl
  have hs := congrArg String.toList h
  simp only [defaultName, String.toList_append (t := Nat.repr _), Nat.toList_repr] at hs
  obtain ⟨e1, e2⟩ := digits_split (hpre l i hl) (hpre l' i' hl') hs
  have e3 : (if i then "_" else "") ++ l = (if i' then "_" else "") ++ l' := String.toList_inj.mp e1
  cases i <;> cases i'
  · simp at e3; exact ⟨e3, rfl, e2⟩
  · simp at e3; exact absurd e3 h2
  · simp at e3; exact absurd e3.symm h1
  · simp only [if_true] at e3
    have := congrArg String.toList e3
    simp only [String.toList_append] at this
    exact ⟨String.toList_inj.mp (List.append_cancel_left this), rfl, e2⟩

variable {T : List Cls}

theorem labelOf_mem {c : Nat} (hc : c < T.length) : ∃ x ∈ T, x.label = labelOf T c ∧ T[c]? = some x := by
  refine ⟨T[c], List.getElem_mem hc, ?_, List.getElem?_eq_getElem hc⟩
  simp [labelOf, hc]

theorem labelOf_inj (hT : GoodTable T) {c c' : Nat} (hc : c < T.length) (hc' : c' < T.length)
    (h : labelOf T c = labelOf T c') : c = c' := by
  have hn := hT.labels
  have h1 : (T.map Cls.label)[c]'(by simpa using hc) = (T.map Cls.label)[c']'(by simpa using hc') := by
    simpa [labelOf, hc, hc'] using h
  exact (List.Nodup.getElem_inj_iff hn).mp h1

theorem defaultName_unique (hT : GoodTable T) {c c' : Nat} (hc : c < T.length) (hc' : c' < T.length) {i i' : Bool} {n n' : Nat}
    (h : defaultName (labelOf T c) i n = defaultName (labelOf T c') i' n') : c = c' ∧ i = i' ∧ n = n' := by
  obtain ⟨x, hx, hxl, _⟩ := labelOf_mem hc
  obtain ⟨y, hy, hyl, _⟩ := labelOf_mem hc'
  have := defaultName_inj (hxl ▸ hT.digits x hx) (hyl ▸ hT.digits y hy) (by rw [← hxl, ← hyl]; exact hT.under x hx y hy)
    (by rw [← hxl, ← hyl]; exact hT.under y hy x hx) h
  exact ⟨labelOf_inj hT hc hc' this.1, this.2.1, this.2.2⟩

/-- The counter used for the name of an object of class `c`. -/
def cnt (T : List Cls) (k : Counters) (c : Nat) (i : Bool) : Nat := if i then counter T k.int c else counter T k.ext c

/-- Every class has its own counters. -/
def Owned (T : List Cls) (k : Counters) : Prop := ∀ c < T.length, (k.ext c).isSome ∧ (k.int c).isSome

theorem counter_some {f : Nat → Option Nat} {c n : Nat} (h : f c = some n) : counter T f c = n := by
  simp [counter, lookupAttr, h]

theorem owned_init (hT : GoodTable T) : Owned T (initCounters T) := by
  intro c hc
  obtain ⟨x, hx, _, hg⟩ := labelOf_mem hc
  simp [initCounters, hg, hT.own x hx]

theorem owned_reset : Owned T resetCounters := by
  intro c _; simp [resetCounters]

theorem counter_update {f : Nat → Option Nat} {c c' n v : Nat} (h : f c' = some n) :
    counter T (fun x => if x = c then some v else f x) c' = if c' = c then v else n := by
  by_cases hc : c' = c
  · rw [if_pos hc]; exact counter_some (by simp [hc])
  · rw [if_neg hc]; exact counter_some (by simp [hc, h])

theorem increment_cnt (k : Counters) (hk : Owned T k) (c : Nat) (i : Bool) (c' : Nat)
    (hc' : c' < T.length) (i' : Bool) :
    cnt T (increment T k c i) c' i' = cnt T k c' i' + (if c' = c ∧ i' = i then 1 else 0) := by
  obtain ⟨⟨e', he'⟩, ⟨n', hn'⟩⟩ := (hk c' hc').imp Option.isSome_iff_exists.mp Option.isSome_iff_exists.mp
  cases i <;> cases i' <;> simp only [cnt, increment, if_true, if_false, Bool.false_eq_true, and_true, and_false,
    Nat.add_zero, Bool.true_eq_false]
  · rw [counter_update he', counter_some he']
    split
    · rename_i h; subst h; rw [counter_some he']
    · rfl
  · rw [counter_update hn', counter_some hn']
    split
    · rename_i h; subst h; rw [counter_some hn']
    · rfl

theorem increment_owned (k : Counters) (hk : Owned T k) (c : Nat) (i : Bool) : Owned T (increment T k c i) := by
  intro c' hc'
  cases i <;> by_cases h : c' = c <;> simp [increment, h, hk c' hc']
  · exact (hk c (h ▸ hc')).2
  · exact (hk c (h ▸ hc')).1

theorem createNames_mem (k : Counters) (hk : Owned T k) (h : List (Nat × Bool)) (hh : ∀ p ∈ h, p.1 < T.length) :
    ∀ s ∈ createNames T k h, ∃ c i n, c < T.length ∧ s = defaultName (labelOf T c) i n ∧ cnt T k c i < n := by
  induction h generalizing k with
  | nil => intro s hs; simp [createNames] at hs
  | cons p rest ih =>
    obtain ⟨c, i⟩ := p
    have hc := hh (c, i) (by simp)
    intro s hs
    simp only [createNames, List.mem_cons] at hs
    rcases hs with rfl | hs
    · refine ⟨c, i, cnt T (increment T k c i) c i, hc, ?_, ?_⟩
      · cases i <;> rfl
      · rw [increment_cnt k hk c i c hc i]; simp
    · obtain ⟨c', i', n, h1, h2, h3⟩ := ih _ (increment_owned k hk c i) (fun q hq => hh q (by simp [hq])) s hs
      refine ⟨c', i', n, h1, h2, ?_⟩
      rw [increment_cnt k hk c i c' h1 i'] at h3
      omega

/-- **C23** the default names of all objects created in a session are pairwise different. -/
theorem C23_unique (hT : GoodTable T) (h : List (Nat × Bool)) (hh : ∀ p ∈ h, p.1 < T.length) :
    (createNames T (initCounters T) h).Nodup := by
  have gen : ∀ (h : List (Nat × Bool)) (k : Counters), Owned T k → (∀ p ∈ h, p.1 < T.length) → (createNames T k h).Nodup := by
    intro h
    induction h with
    | nil => intro k _ _; simp [createNames]
    | cons p rest ih =>
      obtain ⟨c, i⟩ := p
      intro k hk hh
      have hc := hh (c, i) (by simp)
      simp only [createNames, List.nodup_cons]
      refine ⟨?_, ih _ (increment_owned k hk c i) fun q hq => hh q (by simp [hq])⟩
      intro hmem
      obtain ⟨c', i', n, h1, h2, h3⟩ := createNames_mem _ (increment_owned k hk c i) rest
        (fun q hq => hh q (by simp [hq])) _ hmem
      have e : namer T (increment T k c i) c i = defaultName (labelOf T c) i (cnt T (increment T k c i) c i) := by
        cases i <;> rfl
      rw [e] at h2
      obtain ⟨e1, e2, e3⟩ := defaultName_unique hT hc h1 h2
      subst e1 e2
      have h3' : cnt T (increment T k c i) c i < n := h3
      omega
  exact gen h _ (owned_init hT) hh

/-- Names only depend on the counters. -/
theorem createNames_congr (k k' : Counters) (hk : Owned T k) (hk' : Owned T k') (h : List (Nat × Bool))
    (hh : ∀ p ∈ h, p.1 < T.length) (he : ∀ c < T.length, ∀ i, cnt T k c i = cnt T k' c i) :
    createNames T k h = createNames T k' h := by
  induction h generalizing k k' with
  | nil => rfl
  | cons p rest ih =>
    obtain ⟨c, i⟩ := p
    have hc := hh (c, i) (by simp)
    have hinc : ∀ c' < T.length, ∀ i', cnt T (increment T k c i) c' i' = cnt T (increment T k' c i) c' i' := by
      intro c' hc' i'
      rw [increment_cnt k hk c i c' hc' i', increment_cnt k' hk' c i c' hc' i', he c' hc' i']
    have e : ∀ k, namer T k c i = defaultName (labelOf T c) i (cnt T k c i) := by intro k; cases i <;> rfl
    simp only [createNames]
    rw [e, e, hinc c hc i, ih _ _ (increment_owned k hk c i) (increment_owned k' hk' c i) (fun q hq => hh q (by simp [hq])) hinc]

/-- **C23** after `_resetAll` the same sequence of creations yields the same names as in a fresh session. -/
theorem C23_reset (hT : GoodTable T) (h : List (Nat × Bool)) (hh : ∀ p ∈ h, p.1 < T.length) :
    createNames T resetCounters h = createNames T (initCounters T) h := by
  refine createNames_congr _ _ owned_reset (owned_init hT) h hh fun c hc i => ?_
  obtain ⟨x, hx, _, hg⟩ := labelOf_mem hc
  have h1 : (initCounters T).ext c = some 0 := by simp [initCounters, hg, hT.own x hx]
  have h2 : (initCounters T).int c = some 0 := by simp [initCounters, hg, hT.own x hx]
  cases i
  · simp only [cnt, Bool.false_eq_true, if_false]; rw [counter_some h1, counter_some (f := resetCounters.ext) rfl]
  · simp only [cnt, if_true]; rw [counter_some h2, counter_some (f := resetCounters.int) rfl]

/-- **C23** a name once set never changes. -/
theorem C23_name_fixed (a : AliasObj) (s : String) (h : a.name = some s) (news : List (String ⊕ String)) :
    (news.foldl (fun (x : AliasObj) (c : String ⊕ String) => match c with
      | .inl n => x.setName n
      | .inr al => x.addAlias al) a).name = some s := by
  induction news generalizing a with
  | nil => exact h
  | cons c rest ih =>
    rw [List.foldl_cons]
    apply ih
    cases c with
    | inl n => simp [AliasObj.setName, h]
    | inr al => simpa [AliasObj.addAlias] using h

/-- **C23** after any assignments of names and aliases the name is the first one that was ever given, and the aliases are kept in
order, with repetitions. -/
theorem C23_name_first (a : AliasObj) (news : List (String ⊕ String)) :
    let x := news.foldl (fun (x : AliasObj) (c : String ⊕ String) => match c with
      | .inl n => x.setName n
      | .inr al => x.addAlias al) a
    x.name = (a.name <|> (news.filterMap Sum.getLeft?).head?) ∧ x.alias = a.alias ++ news.filterMap Sum.getRight? := by
  induction news generalizing a with
  | nil => cases h : a.name <;> simp [h]
  | cons c rest ih =>
    simp only [List.foldl_cons]
    obtain ⟨h1, h2⟩ := ih (match c with | .inl n => a.setName n | .inr al => a.addAlias al)
    refine ⟨h1.trans ?_, h2.trans ?_⟩
    · cases c with
      | inl n => cases h : a.name <;> simp [AliasObj.setName, h, List.filterMap_cons]
      | inr al => simp [AliasObj.addAlias, List.filterMap_cons]
    · cases c with
      | inl n => cases h : a.name <;> simp [AliasObj.setName, h, List.filterMap_cons]
      | inr al => simp [AliasObj.addAlias, List.filterMap_cons]

example : ([.inl "x", .inl "y", .inr "z", .inl "w"] : List (String ⊕ String)).foldl
    (fun (x : AliasObj) (c : String ⊕ String) => match c with
      | .inl n => x.setName n
      | .inr al => x.addAlias al) ⟨none, ["a"]⟩ = ⟨some "x", ["a", "z"]⟩ := by decide

/-- The classes of the library with their labels (`label` in each class body; all of them define the counters), without the old
system classes of `QSys.py`. -/
def library : List Cls :=
  [⟨"named", none, true⟩, ⟨"qBase", some 0, true⟩, ⟨"updateBase", some 1, true⟩, ⟨"paramBoundBase", some 1, true⟩,
   ⟨"computeBase", some 3, true⟩, ⟨"QSimComp", some 4, true⟩, ⟨"stateBase", some 4, true⟩, ⟨"timeBase", some 6, true⟩,
   ⟨"Simulation", some 7, true⟩, ⟨"_sweep", some 2, true⟩, ⟨"Sweep", some 1, true⟩, ⟨"qResBase", some 1, true⟩,
   ⟨"qResults", some 11, true⟩, ⟨"QTerm", some 3, true⟩, ⟨"QuantumSystem", some 5, true⟩, ⟨"Cavity", some 14, true⟩,
   ⟨"Spin", some 14, true⟩, ⟨"Qubit", some 16, true⟩, ⟨"genericProtocol", some 5, true⟩, ⟨"qProtocol", some 18, true⟩,
   ⟨"copyStep", some 1, true⟩, ⟨"freeEvolution", some 18, true⟩, ⟨"Gate", some 18, true⟩, ⟨"Update", some 2, true⟩,
   ⟨"SpinRotation", some 22, true⟩, ⟨"xGate", some 24, true⟩, ⟨"_genericOpen", some 3, true⟩, ⟨"dissipator", some 26, true⟩,
   ⟨"environment", some 26, true⟩, ⟨"genericDrive", some 3, true⟩, ⟨"qDrive", some 29, true⟩, ⟨"pulse", some 29, true⟩]

/-- **C23** the classes of the library satisfy the assumptions of the theorems above. -/
theorem C23_library : GoodTable library :=
  ⟨by decide, by decide, by decide, by decide⟩

/-- A class derived by the user without own label and counters breaks both: its first object is named like the first object of
its base class, and names after a reset differ. -/
theorem C23_subclass_without_counters :
    let T := library ++ [⟨"Qubit", some 17, false⟩]
    ¬ (createNames T (initCounters T) [(32, false), (17, false)]).Nodup ∧
    createNames T (initCounters T) [(17, false), (32, false)] ≠ createNames T resetCounters [(17, false), (32, false)] := by
  decide

example : createNames library (initCounters library) [(17, false), (15, false), (17, true), (17, false)] =
    ["Qubit1", "Cavity1", "_Qubit1", "Qubit2"] := by decide

end Verif.Names
