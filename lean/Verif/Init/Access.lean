import Verif.Init.Props

/-!
# C32: fitting inputs are accepted, and what assignments and reads do
-/
namespace Verif.Init
open NMat St

theorem create_setCache (k : Option Bool) (d : ℕ) (f : Bool) (i : Inp) (c c' : Option Mat) (s : List St) (inp : Inp) :
    create (node k d f i c s) inp = create (node k d f i c' s) inp := by
  unfold create
  have : dimension (node k d f i c s) = dimension (node k d f i c' s) := by
    rcases k with _ | k
    · rfl
    · cases k <;> rfl
  rw [this]

theorem leafState_eq {m : ℤ} {d : ℕ} {f : Bool} {i : Inp} {φ : Toolbox.Ket d} (hm : m < d)
    (h : Toolbox.superPos d (toExc i) (!f) = some φ) : leafState m d f i = some (some (ofKet φ)) := by
  cases i with
  | none => simp [toExc, Toolbox.superPos, Toolbox.superPosItems] at h
  | _ => simp [leafState, hm, h]

/-- A stored input that can be used directly can also be used through `None`. -/
theorem create_stored {k : Option Bool} {d : ℕ} {f : Bool} {st : Inp} {c : Option Mat} {s : List St} {ψ : Mat}
    (hp : (node k d f st c s).proper) (hn : ∀ A, st ≠ .arr A) (h : create (node k d f st c s) st = some (some ψ)) :
    create (node k d f st c s) .none = some (some ψ) := by
  have ha : st.asArr = none := by cases st <;> first | rfl | exact absurd rfl (hn _)
  have ho : orStored st st = st := by cases st <;> rfl
  have hno : orStored st .none = st := rfl
  unfold create at h ⊢
  cases hm : maxInput st with
  | none => simp [hm] at h
  | some m =>
    simp only [hm, ha, ho] at h
    simp only [maxInput, Inp.asArr, hno]
    by_cases hk : k = some true
    · simp only [hk, if_true] at h ⊢; exact h
    · simp only [hk, if_false] at h ⊢
      obtain ⟨φ, hφ, rfl⟩ := leafState_some h
      simp only [St.proper] at hp
      exact leafState_eq (by have := hp.1 hk; omega) hφ

theorem factorsL_length {s : List St} {l : List Inp} {L : List Mat} (h : FactorsL s l L) : s.length ≤ l.length := by
  induction s generalizing l L with
  | nil => simp
  | cons t r ih =>
    cases h with
    | cons _ _ _ _ _ _ h1 h2 => simp; exact ih h2

mutual
/-- **C32 (what is accepted).** In a system whose single parts have at least two levels, every input that stands for some states is
accepted, and gives their tensor product. -/
theorem C32_accepted : ∀ {t : St} {i : Inp} {L : List Mat}, Factors t i L → t.proper →
    ∃ ψ, create t i = some (some ψ) ∧ tensorProd (L.map .mat) = some ψ
  | _, _, _, .array t A hA, _ => by
    refine ⟨A, ?_, single_rows⟩
    cases t
    unfold create
    simp [maxInput, Inp.asArr, hA]
  | _, _, _, .single k d f st c s i φ hk hφ, hp => by
    refine ⟨ofKet φ, ?_, single_rows⟩
    obtain ⟨m, hm, hlt⟩ := maxInput_lt hφ
    have hi : orStored st i = i ∧ i.asArr = none := by
      cases i <;> simp_all [orStored, Inp.asArr, toExc, Toolbox.superPos, Toolbox.superPosItems]
    unfold create
    simp only [hm, hi.1, hi.2, hk, if_false]
    exact leafState_eq hlt hφ
  | _, _, _, .stored k d f st c s L hst hn h, hp => by
    obtain ⟨ψ, h1, h2⟩ := C32_accepted h hp
    exact ⟨ψ, create_stored hp hn h1, h2⟩
  | _, _, _, .list d f st c s l L h, hp => by
    simp only [St.proper] at hp
    obtain ⟨As, h1, h2, h3⟩ := C32_acceptedL h hp.2.2
    have hne := hp.2.1 trivial
    have hl : l ≠ [] := by
      rintro rfl
      cases h with
      | nil => exact hne rfl
    have hm : ∃ m, maxInput (.list l) = some m := by
      simp only [maxInput]
      cases hi : ints l with
      | none => exact ⟨1, rfl⟩
      | some ns =>
        cases ns with
        | nil =>
          cases l with
          | nil => exact absurd rfl hl
          | cons x r =>
            cases x <;> simp [ints] at hi
            split at hi <;> simp at hi
        | cons n r => exact ⟨_, rfl⟩
    obtain ⟨m, hm⟩ := hm
    have hAs : As ≠ [] := by
      rintro rfl
      exact hne (List.length_eq_zero_iff.1 (by simpa using h3.symm))
    obtain ⟨ψ, hψ⟩ := tensorProd_ne_none (xs := As.map Arg.mat) (by simpa using hAs)
    refine ⟨ψ, ?_, by rw [← h2, hψ]⟩
    unfold create
    simp only [hm, Inp.asArr, if_true, orStored, inputsFor, factorsL_length h, h1, joinStates, (allSome_eq _ As).2 rfl, hψ,
      Option.map_some]
  | _, _, _, .parts d f c s L h, hp => by
    simp only [St.proper] at hp
    obtain ⟨As, h1, h2, h3⟩ := C32_acceptedL h hp.2.2
    have hne := hp.2.1 trivial
    have hAs : As ≠ [] := by
      rintro rfl
      exact hne (List.length_eq_zero_iff.1 (by simpa using h3.symm))
    obtain ⟨ψ, hψ⟩ := tensorProd_ne_none (xs := As.map Arg.mat) (by simpa using hAs)
    refine ⟨ψ, ?_, by rw [← h2, hψ]⟩
    unfold create
    simp only [maxInput, Inp.asArr, if_true, orStored, inputsFor, h1, joinStates, (allSome_eq _ As).2 rfl, hψ, Option.map_some]
theorem C32_acceptedL : ∀ {s : List St} {l : List Inp} {L : List Mat}, FactorsL s l L → properL s →
    ∃ As : List Mat, createSubs s l = some (As.map some) ∧ tensorProd (As.map .mat) = tensorProd (L.map .mat) ∧ As.length = s.length
  | _, _, _, .nil l, _ => ⟨[], by simp [createSubs], rfl, rfl⟩
  | _, _, _, .cons t r i l L L' h1 h2, hp => by
    simp only [properL] at hp
    obtain ⟨ψ, e1, e2⟩ := C32_accepted h1 hp.1
    obtain ⟨As, e3, e4, e5⟩ := C32_acceptedL h2 hp.2
    refine ⟨ψ :: As, by simp [createSubs, e1, e3], ?_, by simp [e5]⟩
    by_cases hA : As = []
    · subst hA
      have : L' = [] := tensorProd_none.1 e4.symm
      subst this
      simp [tensorProd, e2]
    · obtain ⟨B, hB⟩ := tensorProd_ne_none (xs := As.map Arg.mat) (by simpa using hA)
      rw [tensorProd_append e2 (by rw [← e4, hB])]
      have := C38_grouping [.mat ψ] (As.map .mat) ψ B single_rows hB
      rw [List.map_cons, ← List.singleton_append, this.1, this.2]
end

/-! ### Assignments and reads -/

theorem assign_shape {t t' : St} {inp : Inp} (h : assign t inp = some t') :
    t'.input = inp ∧ create t' inp = some t'.cache ∧ t'.input = inp := by
  obtain ⟨k, d, f, i, c, s⟩ := t
  rcases k with _ | k
  · simp [assign] at h
  · cases k
    · unfold assign at h
      split at h
      · cases h
      · rename_i r hr
        simp only [Option.some.injEq] at h
        subst h
        exact ⟨rfl, by rw [create_setCache _ _ _ _ _ c]; exact hr, rfl⟩
    · unfold assign at h
      split at h
      · cases h
      · split at h
        · cases h
        · rename_i s' _ r hr
          simp only [Option.some.injEq] at h
          subst h
          exact ⟨rfl, by rw [create_setCache _ _ _ _ _ c]; exact hr, rfl⟩

/-- **C32 (read after assignment).** The state read after an assignment is the one created from the assigned input, and reading does
not change anything. -/
theorem C32_read_after_assign {t t' : St} {inp : Inp} (h : assign t inp = some t') :
    ∃ r, create t' inp = some r ∧ read t' = some (r, t') := by
  obtain ⟨h1, h2, _⟩ := assign_shape h
  refine ⟨t'.cache, h2, ?_⟩
  obtain ⟨k, d, f, i, c, s⟩ := t'
  simp only [St.cache, St.input] at h1 h2
  cases c with
  | none => rw [← h1] at h2; simp [read, St.cache, St.input, h2, St.setCache]
  | some A =>
    have := C32_dimension _ _ _ h2
    simp [read, St.cache, this]

/-- **C32 (assignment to a part), partial.** When the composite has no input of its own, an assignment to one of its direct parts is
followed by the composite: the next read is the product of the states of the parts, the part standing for its new input.  Missing:
composites with an input of their own and deeper nesting, see `C32_part_ignored` and `C32_stale`. -/
theorem C32_part_partial {d : ℕ} {f : Bool} {c : Option Mat} {s : List St} {n : ℕ} {inp : Inp} {t t' : St} {ψ : Mat}
    (h : assignAt (node (some true) d f .none c s) [n] inp = some t) (hr : read t = some (some ψ, t')) :
    ∃ x s', s' = s.set n x ∧ x.input = inp ∧ n < s.length ∧
      ∃ L, FactorsL s' (s'.map St.input) L ∧ tensorProd (L.map .mat) = some ψ := by
  simp only [assignAt] at h
  cases hs : s[n]? with
  | none => simp [hs] at h
  | some y =>
    simp only [hs] at h
    cases ha : assign y inp with
    | none => simp [ha] at h
    | some x =>
      simp only [ha, if_true, Option.some.injEq] at h
      subst h
      refine ⟨x, _, rfl, (assign_shape ha).1, (List.getElem?_eq_some_iff.1 hs).1, ?_⟩
      simp only [read, St.cache, St.input] at hr
      cases hc : create (node (some true) d f .none none (s.set n x)) .none with
      | none => simp [hc] at hr
      | some r =>
        simp only [hc, Option.some.injEq, Prod.mk.injEq] at hr
        rw [hr.1] at hc
        obtain ⟨L, hL, hT⟩ := C32_product _ _ _ hc
        refine ⟨L, ?_, hT⟩
        cases hL with
        | single _ _ _ _ _ _ _ _ hk => exact absurd rfl hk
        | parts _ _ _ _ _ h => exact h
        | stored _ _ _ _ _ _ _ h => exact absurd rfl h

/-! ### Where the composite does not follow its parts -/

/-- A two-level system in a basis state. -/
noncomputable def level (n : ℕ) : Mat := ofKet (Toolbox.basis 2 n)

/-- A two-level system with the given stored input. -/
def qubit (i : Inp) (c : Option Mat) : St := node (some false) 2 false i c []

theorem create_qubit (i : Inp) (c : Option Mat) (n : ℕ) (hn : n < 2) : create (qubit i c) (.int n) = some (some (level n)) := by
  unfold create qubit
  simp only [maxInput, Inp.asArr, orStored, reduceCtorEq, Option.some.injEq, Bool.false_eq_true, if_false]
  have h := Toolbox.C37_int 2 (n : ℤ) true (by omega) (by omega)
  simp only [Int.toNat_natCast] at h
  exact leafState_eq (by exact_mod_cast hn) h

theorem level_ne : kron (level 0) (level 0) ≠ kron (level 1) (level 0) := by
  intro h
  have h0 := congrArg (fun A : Mat => A.entry 0 0) h
  simp [kron, level, ofKet, Toolbox.basis] at h0

theorem create_two (d : ℕ) (f : Bool) (i j k l : Inp) (c c₁ c₂ : Option Mat) (m n : ℕ) (hm : m < 2) (hn : n < 2) :
    create (node (some true) d f i c [qubit k c₁, qubit l c₂]) (.list [.int m, .int n]) = some (some (kron (level m) (level n))) := by
  unfold create
  simp only [maxInput, ints, pyMax, Inp.asArr, orStored, inputsFor, if_true, List.length_cons, List.length_nil, le_refl, createSubs,
    create_qubit _ _ m hm, create_qubit _ _ n hn, joinStates, allSome, List.map_cons, List.map_nil]
  simp [tensorProd]

/-- The first system is the slowest index: a qubit in its second and a qubit in its first level. -/
example : ∃ ψ, create (node (some true) 1 false .none none [qubit .none none, qubit .none none]) (.list [.int (1 : ℕ), .int (0 : ℕ)])
    = some (some ψ) ∧ ψ.rows = 4 ∧ ψ.entry 2 0 = 1 :=
  ⟨_, create_two 1 false .none .none .none .none none none none 1 0 (by omega) (by omega), rfl, by simp [kron, level, ofKet, Toolbox.basis]⟩

/-- False for the code: once the composite was given an initial state, assigning one to a part has no effect on it. -/
theorem C32_part_ignored : ∃ (t t₁ t₂ t₃ : St), assignAt t [] (.list [.int 0, .int 0]) = some t₁ ∧
    assignAt t₁ [0] (.int 1) = some t₂ ∧ read t₂ = some (some (kron (level 0) (level 0)), t₃) ∧
    kron (level 0) (level 0) ≠ kron (level 1) (level 0) := by
  refine ⟨node (some true) 1 false .none none [qubit .none none, qubit .none none],
    node (some true) 1 false (.list [.int 0, .int 0]) (some (kron (level 0) (level 0)))
      [qubit (.int 0) (some (level 0)), qubit (.int 0) (some (level 0))],
    node (some true) 1 false (.list [.int 0, .int 0]) none
      [qubit (.int 1) (some (level 1)), qubit (.int 0) (some (level 0))],
    node (some true) 1 false (.list [.int 0, .int 0]) (some (kron (level 0) (level 0)))
      [qubit (.int 1) (some (level 1)), qubit (.int 0) (some (level 0))], ?_, ?_, ?_, level_ne⟩
  · have hq : ∀ i c (n : ℕ), n < 2 → assign (qubit i c) (.int n) = some (qubit (.int n) (some (level n))) := by
      intro i c n hn
      have := create_qubit (.int n) c n hn
      unfold assign qubit
      simp only [qubit] at this
      simp [this]
    have h0 : ∀ i c, assign (qubit i c) (.int 0) = some (qubit (.int 0) (some (level 0))) := fun i c => hq i c 0 (by omega)
    have h2 := create_two 1 false (.list [.int 0, .int 0]) .none (.int 0) (.int 0) none (some (level 0)) (some (level 0)) 0 0
      (by omega) (by omega)
    simp only [Nat.cast_zero] at h2
    simp only [assignAt, assign, List.length_cons, List.length_nil, if_true, assignSubs, h0, h2]
  · have := create_qubit (.int 1) (some (level 0)) 1 (by omega)
    simp only [qubit, Nat.cast_one] at this
    simp [assignAt, qubit, assign, this]
  · have h2 := create_two 1 false (.list [.int 0, .int 0]) .none (.int 1) (.int 0) none (some (level 1)) (some (level 0)) 0 0
      (by omega) (by omega)
    simp only [Nat.cast_zero] at h2
    simp only [read, St.cache, St.input, h2, St.setCache]

/-- False for the code: in a nested structure the outer composite keeps the state it had before the assignment to the inner part
(even though no composite was given an initial state of its own). -/
theorem C32_stale : ∃ (t t₁ t₂ t₃ : St), read t = some (some (level 0), t₁) ∧ assignAt t₁ [0, 0] (.int 1) = some t₂ ∧
    read t₂ = some (some (level 0), t₃) ∧ create t₂ .none = some (some (level 1)) ∧ level 0 ≠ level 1 := by
  have hq : ∀ c (n : ℕ), n < 2 → create (qubit (.int n) c) .none = some (some (level n)) := by
    intro c n hn
    have h := Toolbox.C37_int 2 (n : ℤ) true (by omega) (by omega)
    simp only [Int.toNat_natCast] at h
    unfold create qubit
    simp only [maxInput, Inp.asArr, orStored, reduceCtorEq, Option.some.injEq, Bool.false_eq_true, if_false]
    exact leafState_eq (by norm_num) h
  have hin : ∀ c c' (n : ℕ), n < 2 → create (node (some true) 1 false .none c [qubit (.int n) c']) .none = some (some (level n)) := by
    intro c c' n hn
    have := create_qubit (.int n) c' n hn
    unfold create
    simp only [maxInput, Inp.asArr, orStored, if_true, inputsFor, List.map_cons, List.map_nil]
    rw [show (qubit (.int n) c').input = .int n from rfl]
    simp [createSubs, this, joinStates, allSome, tensorProd]
  have hout : ∀ c c' c'' (n : ℕ), n < 2 → create (node (some true) 1 false .none c
      [node (some true) 1 false .none c' [qubit (.int n) c'']]) .none = some (some (level n)) := by
    intro c c' c'' n hn
    have := hin c' c'' n hn
    unfold create
    simp only [maxInput, Inp.asArr, orStored, if_true, inputsFor, List.map_cons, List.map_nil]
    rw [show (node (some true) 1 false .none c' [qubit (.int n) c'']).input = .none from rfl]
    simp [createSubs, this, joinStates, allSome, tensorProd]
  refine ⟨node (some true) 1 false .none none [node (some true) 1 false .none none [qubit (.int (0 : ℕ)) none]],
    node (some true) 1 false .none (some (level 0)) [node (some true) 1 false .none none [qubit (.int (0 : ℕ)) none]],
    node (some true) 1 false .none (some (level 0)) [node (some true) 1 false .none none [qubit (.int (1 : ℕ)) (some (level 1))]],
    node (some true) 1 false .none (some (level 0)) [node (some true) 1 false .none none [qubit (.int (1 : ℕ)) (some (level 1))]],
    ?_, ?_, ?_, ?_, ?_⟩
  · simp only [read, St.cache, St.input, hout none none none 0 (by omega), St.setCache]
  · have := create_qubit (.int (1 : ℕ)) none 1 (by omega)
    simp only [qubit, Nat.cast_one] at this
    simp [assignAt, qubit, assign, this]
  · simp [read, St.cache, dimension, dimProd, level, ofKet, qubit]
  · exact hout _ _ _ 1 (by omega)
  · intro h
    have h0 := congrArg (fun A : Mat => A.entry 0 0) h
    simp [level, ofKet, Toolbox.basis] at h0

/-- **C32 (size).** Whatever is read has as many rows as the system has dimensions, also after the dimensions were changed. -/
theorem C32_read_dimension {t t' : St} {ψ : Mat} (h : read t = some (some ψ, t')) : ψ.rows = t.dimension := by
  have hcreate : ∀ {r : Option Mat}, (match create t t.input with | none => none | some r => some (r, t.setCache r)) =
      some (some ψ, t') → ψ.rows = t.dimension := by
    intro _ h
    split at h
    · cases h
    · rename_i r hr
      simp only [Option.some.injEq, Prod.mk.injEq] at h
      exact C32_dimension t t.input ψ (by rw [hr, h.1])
  unfold read at h
  cases hc : t.cache with
  | none =>
    rw [hc] at h
    exact hcreate (r := none) h
  | some A =>
    rw [hc] at h
    by_cases hA : A.rows = t.dimension
    · simp only [hA, if_true, Option.some.injEq, Prod.mk.injEq] at h
      rw [← h.1]; exact hA
    · simp only [hA, if_false] at h
      exact hcreate (r := none) h

/-- **C32 (missing states).** When the input of one of the single systems of a composite is a level it does not have, the state of
the composite is `None`; no exception is raised. -/
theorem C32_missing (d : ℕ) (f : Bool) (st : Inp) (c : Option Mat) (parts : List (ℕ × ℕ)) (hne : ∃ p ∈ parts, p.1 ≤ p.2) :
    create (node (some true) d f st c (parts.map fun p => node (some false) p.1 false .none none []))
      (.list (parts.map fun p => .int p.2)) = some none := by
  have hi : ∀ l : List (ℕ × ℕ), ints (l.map fun p => Inp.int p.2) = some (l.map fun p => (p.2 : ℤ)) := by
    intro l
    induction l with
    | nil => rfl
    | cons p l ih => simp [ints, ih]
  have hl : ∀ (n m : ℕ), create (node (some false) n false .none none []) (.int m) =
      if m < n then some (some (ofKet (Toolbox.basis n m))) else some none := by
    intro n m
    unfold create
    simp only [maxInput, Inp.asArr, orStored, leafState]
    by_cases h : m < n
    · have := Toolbox.C37_int n (m : ℤ) true (by omega) (by omega)
      simp [h, toExc, this]
    · simp [h]
  have hs : ∀ l : List (ℕ × ℕ), ∃ sts, createSubs (l.map fun p => node (some false) p.1 false .none none [])
      (l.map fun p => .int p.2) = some sts ∧ ((∃ p ∈ l, p.1 ≤ p.2) → allSome sts = none) := by
    intro l
    induction l with
    | nil => exact ⟨[], rfl, by simp⟩
    | cons p l ih =>
      obtain ⟨sts, h1, h2⟩ := ih
      by_cases hp : p.2 < p.1
      · refine ⟨some (ofKet (Toolbox.basis p.1 p.2)) :: sts, by simp [createSubs, hl, hp, h1], ?_⟩
        rintro ⟨q, hq, hq'⟩
        rcases List.mem_cons.1 hq with rfl | hq
        · omega
        · simp [allSome, h2 ⟨q, hq, hq'⟩]
      · exact ⟨none :: sts, by simp [createSubs, hl, hp, h1], fun _ => rfl⟩
  obtain ⟨sts, h1, h2⟩ := hs parts
  obtain ⟨p, hp, _⟩ := hne
  have hm : ∃ m, maxInput (.list (parts.map fun p => Inp.int p.2)) = some m := by
    cases parts with
    | nil => simp at hp
    | cons q r => exact ⟨_, by rw [maxInput, hi]; rfl⟩
  obtain ⟨m, hm⟩ := hm
  unfold create
  simp only [hm, Inp.asArr, orStored, inputsFor, List.length_map, le_refl, if_true, h1, joinStates, h2 ⟨p, hp, by assumption⟩]

/-- a qubit and a qutrit with the inputs 1 and 3 -/
example : create (node (some true) 1 false .none none [node (some false) 2 false .none none [], node (some false) 3 false .none none []])
    (.list [.int 1, .int 3]) = some none :=
  C32_missing 1 false .none none [(2, 1), (3, 3)] ⟨(3, 3), by simp, by simp⟩

end Verif.Init
