import Verif.Init.Model

/-!
# C32: the initial state of a composite is the product of the states of the parts
-/
namespace Verif.Init
open NMat St

mutual
/-- Specification: the states of the single systems (from left to right) that the input of a system stands for.  An array stands for
itself, `None` for the stored input, or for the inputs of the parts when there is none. -/
inductive Factors : St → Inp → List Mat → Prop
  | array (t : St) (A : Mat) : A.rows = t.dimension → Factors t (.arr A) [A]
  | single (k : Option Bool) (d : ℕ) (f : Bool) (st : Inp) (c : Option Mat) (s : List St) (i : Inp) (ψ : Toolbox.Ket d) :
      k ≠ some true → Toolbox.superPos d (toExc i) (!f) = some ψ → Factors (node k d f st c s) i [ofKet ψ]
  | stored (k : Option Bool) (d : ℕ) (f : Bool) (st : Inp) (c : Option Mat) (s : List St) (L : List Mat) :
      st ≠ .none → (∀ A, st ≠ .arr A) → Factors (node k d f st c s) st L → Factors (node k d f st c s) .none L
  | list (d : ℕ) (f : Bool) (st : Inp) (c : Option Mat) (s : List St) (l : List Inp) (L : List Mat) :
      FactorsL s l L → Factors (node (some true) d f st c s) (.list l) L
  | parts (d : ℕ) (f : Bool) (c : Option Mat) (s : List St) (L : List Mat) :
      FactorsL s (s.map St.input) L → Factors (node (some true) d f .none c s) .none L
/-- The same for sub-systems and their inputs. -/
inductive FactorsL : List St → List Inp → List Mat → Prop
  | nil (l : List Inp) : FactorsL [] l []
  | cons (t : St) (r : List St) (i : Inp) (l : List Inp) (L L' : List Mat) :
      Factors t i L → FactorsL r l L' → FactorsL (t :: r) (i :: l) (L ++ L')
end

theorem single_rows {A : Mat} : tensorProd [.mat A] = some A := by simp [tensorProd]

theorem tensorProd_append {L L' : List Mat} {A B : Mat} (h : tensorProd (L.map .mat) = some A)
    (h' : tensorProd (L'.map .mat) = some B) : tensorProd ((L ++ L').map .mat) = some (kron A B) := by
  have := C38_grouping _ _ A B h h'
  rw [List.map_append, this.1, this.2]

theorem tensorProd_none {L : List Mat} : tensorProd (L.map .mat) = none ↔ L = [] := by
  constructor
  · intro h
    by_contra hne
    obtain ⟨A, hA⟩ := tensorProd_ne_none (xs := L.map Arg.mat) (by simpa using hne)
    rw [hA] at h
    cases h
  · rintro rfl; rfl

/-- Tensor product of the states of a list of parts, given by their factors. -/
theorem tensorProd_flatten : ∀ (As : List Mat) (Ls : List (List Mat)), List.Forall₂ (fun A L => tensorProd (L.map .mat) = some A) As Ls →
    tensorProd (As.map .mat) = tensorProd (Ls.flatten.map .mat)
  | [], [], _ => rfl
  | A :: As, L :: Ls, h => by
    cases h with
    | cons h1 h2 =>
      have ih := tensorProd_flatten As Ls h2
      cases As with
      | nil =>
        cases h2
        simp [tensorProd, h1]
      | cons B Bs =>
        obtain ⟨C, hC⟩ := tensorProd_ne_none (xs := (B :: Bs).map Arg.mat) (by simp)
        have e1 : tensorProd ((A :: B :: Bs).map .mat) = some (kron A C) := by
          have := C38_grouping [.mat A] ((B :: Bs).map .mat) A C single_rows hC
          rw [List.map_cons, ← List.singleton_append, this.1, this.2]
        rw [e1, List.flatten_cons]
        exact (tensorProd_append h1 (by rw [← ih, hC])).symm

theorem allSome_eq : ∀ (sts : List (Option Mat)) (As : List Mat), allSome sts = some As ↔ sts = As.map some
  | [], As => by cases As <;> simp [allSome]
  | none :: r, As => by cases As <;> simp [allSome]
  | some A :: r, As => by
    cases As with
    | nil => simp only [allSome]; split <;> simp
    | cons B Bs =>
      simp only [allSome, List.map_cons, List.cons.injEq, Option.some.injEq]
      rw [← allSome_eq r Bs]
      cases h : allSome r <;> simp

theorem leafState_some {m : ℤ} {d : ℕ} {f : Bool} {i : Inp} {ψ : Mat} (h : leafState m d f i = some (some ψ)) :
    ∃ φ, Toolbox.superPos d (toExc i) (!f) = some φ ∧ ψ = ofKet φ := by
  have key : (if m < d then (Toolbox.superPos d (toExc i) (!f)).map fun k => some (ofKet k) else some none) = some (some ψ) := by
    cases i <;> first | exact h | (simp [leafState] at h)
  split at key
  · simp only [Option.map_eq_some_iff, Option.some.injEq] at key
    obtain ⟨φ, h1, h2⟩ := key
    exact ⟨φ, h1, h2.symm⟩
  · simp at key

mutual
/-- **C32 (what is created).** Whenever a state is created, it is the tensor product, from left to right, of the states of the single
systems that the input stands for, at any depth of nesting. -/
theorem C32_product : ∀ (t : St) (inp : Inp) (ψ : Mat), create t inp = some (some ψ) →
    ∃ L, Factors t inp L ∧ tensorProd (L.map .mat) = some ψ
  | node k d f st c s, inp, ψ, h => by
    unfold create at h
    cases hm : maxInput inp with
    | none => simp [hm] at h
    | some m =>
      cases ha : inp.asArr with
      | some A =>
        have : inp = .arr A := by cases inp <;> simp_all [Inp.asArr]
        subst this
        simp only [hm, ha] at h
        split at h
        · rename_i hd
          simp only [Option.some.injEq] at h
          subst h
          exact ⟨[A], .array _ A hd, single_rows⟩
        · cases h
      | none =>
        simp only [hm, ha] at h
        have hna : ∀ A, inp ≠ .arr A := by rintro A rfl; simp [Inp.asArr] at ha
        have wrap : ∀ L, ((∀ A, orStored st inp ≠ .arr A) → orStored st inp ≠ .none → Factors (node k d f st c s) (orStored st inp) L) →
            (∀ A, orStored st inp ≠ .arr A) → (orStored st inp = .none → inp = .none → st = .none → Factors (node k d f st c s) .none L) →
            Factors (node k d f st c s) inp L := by
          intro L h1 h2 h3
          by_cases hi : inp = .none
          · subst hi
            by_cases hs : st = .none
            · subst hs; exact h3 rfl rfl rfl
            · exact .stored k d f st c s L hs h2 (h1 h2 hs)
          · have e : orStored st inp = inp := by cases inp <;> first | rfl | exact absurd rfl hi
            rw [e] at h1 h2
            exact h1 h2 hi
        by_cases hk : k = some true
        · subst hk
          simp only [if_true] at h
          cases hi : inputsFor s (orStored st inp) with
          | none => simp [hi] at h
          | some l =>
            simp only [hi] at h
            cases hs : createSubs s l with
            | none => simp [hs] at h
            | some sts =>
              simp only [hs, joinStates] at h
              cases hal : allSome sts with
              | none => simp [hal] at h
              | some As =>
                simp only [hal, Option.map_eq_some_iff, Option.some.injEq] at h
                obtain ⟨A, ht, rfl⟩ := h
                obtain rfl := (allSome_eq sts As).1 hal
                obtain ⟨L, hL, hT⟩ := C32_productL s l As hs
                refine ⟨L, wrap L ?_ ?_ ?_, by rw [← hT, ht]⟩
                · intro _ hn
                  cases ho : orStored st inp with
                  | none => exact absurd ho hn
                  | list l' =>
                    rw [ho] at hi
                    simp only [inputsFor] at hi
                    split at hi
                    · simp only [Option.some.injEq] at hi; subst hi; exact .list d f st c s _ L hL
                    · cases hi
                  | int n => simp [ho, inputsFor] at hi
                  | dict n => simp [ho, inputsFor] at hi
                  | arr n => simp [ho, inputsFor] at hi
                · intro A hA; simp [hA, inputsFor] at hi
                · intro ho _ hst
                  subst hst
                  rw [ho] at hi
                  simp only [inputsFor, Option.some.injEq] at hi
                  subst hi
                  exact .parts d f c s L hL
        · simp only [hk, if_false] at h
          obtain ⟨φ, hφ, rfl⟩ := leafState_some h
          refine ⟨[ofKet φ], wrap _ ?_ ?_ ?_, single_rows⟩
          · intro _ _; exact .single k d f st c s _ φ hk hφ
          · intro A hA; simp [hA, toExc, Toolbox.superPos, Toolbox.superPosItems] at hφ
          · intro ho _ _
            simp [ho, toExc, Toolbox.superPos, Toolbox.superPosItems] at hφ
theorem C32_productL : ∀ (s : List St) (l : List Inp) (As : List Mat), createSubs s l = some (As.map some) →
    ∃ L, FactorsL s l L ∧ tensorProd (As.map .mat) = tensorProd (L.map .mat)
  | [], l, As, h => by
    simp only [createSubs, Option.some.injEq] at h
    cases As with
    | nil => exact ⟨[], .nil l, rfl⟩
    | cons A r => simp at h
  | t :: r, [], As, h => by simp [createSubs] at h
  | t :: r, i :: l, As, h => by
    simp only [createSubs] at h
    cases hc : create t i with
    | none => simp [hc] at h
    | some a =>
      cases hs : createSubs r l with
      | none => simp [hc, hs] at h
      | some as =>
        simp only [hc, hs, Option.some.injEq] at h
        cases As with
        | nil => simp at h
        | cons A As =>
          simp only [List.map_cons, List.cons.injEq] at h
          obtain ⟨rfl, rfl⟩ := h
          obtain ⟨L, hL, hT⟩ := C32_product t i A hc
          obtain ⟨L', hL', hT'⟩ := C32_productL r l As hs
          refine ⟨L ++ L', .cons t r i l L L' hL hL', ?_⟩
          by_cases hA : As = []
          · subst hA
            have : L' = [] := tensorProd_none.1 hT'.symm
            subst this
            simp [tensorProd, hT]
          · obtain ⟨B, hB⟩ := tensorProd_ne_none (xs := As.map Arg.mat) (by simpa using hA)
            rw [tensorProd_append hT (by rw [← hT', hB])]
            have := C38_grouping [.mat A] (As.map .mat) A B single_rows hB
            rw [List.map_cons, ← List.singleton_append, this.1, this.2]
end

/-! ### Size and norm -/

mutual
/-- The sizes of the factors multiply to the dimension of the system. -/
theorem factors_rows : ∀ {t : St} {i : Inp} {L : List Mat}, Factors t i L → (L.map Mat.rows).prod = t.dimension
  | _, _, _, .array t A hA => by simp [hA]
  | _, _, _, .single k d f st c s i ψ hk hψ => by
    rcases k with _ | k
    · simp [dimension, ofKet]
    · cases k
      · simp [dimension, ofKet]
      · exact absurd rfl hk
  | _, _, _, .stored k d f st c s L hst hn h => by have := factors_rows h; exact this
  | _, _, _, .list d f st c s l L h => by have := factorsL_rows h; simp only [dimension]; exact this
  | _, _, _, .parts d f c s L h => by have := factorsL_rows h; simp only [dimension]; exact this
theorem factorsL_rows : ∀ {s : List St} {l : List Inp} {L : List Mat}, FactorsL s l L → (L.map Mat.rows).prod = dimProd s
  | _, _, _, .nil l => by simp [dimProd]
  | _, _, _, .cons t r i l L L' h1 h2 => by
    have e1 := factors_rows h1
    have e2 := factorsL_rows h2
    rw [List.map_append, List.prod_append, e1, e2]
    simp [dimProd]
end

/-- **C32 (dimension).** The state has the dimension of the system. -/
theorem C32_dimension (t : St) (inp : Inp) (ψ : Mat) (h : create t inp = some (some ψ)) : ψ.rows = t.dimension := by
  obtain ⟨L, hL, hT⟩ := C32_product t inp ψ h
  rw [(C38_shape _ ψ hT).1, ← factors_rows hL]
  congr 1
  simp [List.map_map, Function.comp_def, Arg.toMat]

mutual
/-- No array is used anywhere in the input. -/
def Inp.plain : Inp → Bool
  | .arr _ => false
  | .list l => Inp.plainL l
  | _ => true
/-- The same for lists. -/
def Inp.plainL : List Inp → Bool
  | [] => true
  | i :: l => i.plain && Inp.plainL l
end

mutual
/-- No array is stored anywhere in the system. -/
def St.plain : St → Bool
  | node _ _ _ i _ s => i.plain && St.plainL s
/-- The same for lists. -/
def St.plainL : List St → Bool
  | [] => true
  | t :: r => t.plain && St.plainL r
end

theorem plainL_inputs : ∀ s : List St, plainL s = true → Inp.plainL (s.map St.input) = true
  | [], _ => rfl
  | node k d f i c s :: r, h => by
    simp only [plainL, St.plain, Bool.and_eq_true] at h
    simp [Inp.plainL, St.input, h.1.1, plainL_inputs r h.2]

theorem ofKet_unit {d : ℕ} (k : Toolbox.Ket d) (h : Toolbox.IsUnit k) : innerProd (ofKet k) = 1 := by
  have e : innerProd (ofKet k) = ((∑ i, ‖k i 0‖ ^ 2 : ℝ) : ℂ) := by
    simp only [innerProd, Option.getD_none, trace, mul, NMat.hc, ofKet]
    simp only [min_self, Finset.sum_range_one]
    rw [Finset.sum_range]
    push_cast
    apply Finset.sum_congr rfl
    intro i _
    simp only [Fin.is_lt, dite_true, Fin.eta]
    rw [mul_comm, Complex.mul_conj, Complex.normSq_eq_norm_sq]
    push_cast; rfl
  rw [e, h]; simp

theorem superPos_unit {d : ℕ} {e : Toolbox.Exc} {pop : Bool} {k : Toolbox.Ket d} (h : Toolbox.superPos d e pop = some k) :
    Toolbox.IsUnit k := by
  simp only [Toolbox.superPos, Option.bind_eq_bind, Option.bind_eq_some_iff] at h
  obtain ⟨sts, _, bs, _, s, _, h⟩ := h
  exact ((Toolbox.normaliseKet_spec s).2 k h).1

mutual
/-- Without arrays all factors are normalised kets. -/
theorem factors_unit : ∀ {t : St} {i : Inp} {L : List Mat}, Factors t i L → t.plain = true → i.plain = true →
    ∀ A ∈ L, A.cols = 1 ∧ innerProd A = 1
  | _, _, _, .array t A hA, ht, hi => by simp [Inp.plain] at hi
  | _, _, _, .single k d f st c s i ψ hk hψ, ht, hi => by
    intro A hA
    simp only [List.mem_singleton] at hA
    subst hA
    exact ⟨rfl, ofKet_unit ψ (superPos_unit hψ)⟩
  | _, _, _, .stored k d f st c s L hst hn h, ht, hi => by
    have := factors_unit h ht (by simp only [St.plain, Bool.and_eq_true] at ht; exact ht.1)
    exact this
  | _, _, _, .list d f st c s l L h, ht, hi => by
    simp only [St.plain, Bool.and_eq_true] at ht
    have := factorsL_unit h ht.2 (by simpa [Inp.plain] using hi)
    exact this
  | _, _, _, .parts d f c s L h, ht, hi => by
    simp only [St.plain, Bool.and_eq_true] at ht
    have := factorsL_unit h ht.2 (plainL_inputs s ht.2)
    exact this
theorem factorsL_unit : ∀ {s : List St} {l : List Inp} {L : List Mat}, FactorsL s l L → plainL s = true → Inp.plainL l = true →
    ∀ A ∈ L, A.cols = 1 ∧ innerProd A = 1
  | _, _, _, .nil l, _, _ => by simp
  | _, _, _, .cons t r i l L L' h1 h2, hs, hl => by
    simp only [plainL, Inp.plainL, Bool.and_eq_true] at hs hl
    have e1 := factors_unit h1 hs.1 hl.1
    have e2 := factorsL_unit h2 hs.2 hl.2
    intro A hA
    rcases List.mem_append.1 hA with hA | hA
    · exact e1 A hA
    · exact e2 A hA
end

/-- **C32 (norm), partial.** As long as no array is given (arrays are taken over as they are), the state is a ket of norm one.  Missing:
arrays, see `C32_array_norm`. -/
theorem C32_norm_partial (t : St) (inp : Inp) (ψ : Mat) (h : create t inp = some (some ψ)) (ht : t.plain = true)
    (hi : inp.plain = true) : ψ.cols = 1 ∧ innerProd ψ = 1 := by
  obtain ⟨L, hL, hT⟩ := C32_product t inp ψ h
  have hu := factors_unit hL ht hi
  constructor
  · rw [(C38_shape _ ψ hT).2, List.map_map, List.prod_eq_one]
    intro x hx
    obtain ⟨A, hA, rfl⟩ := List.mem_map.1 hx
    exact (hu A hA).1
  · rw [C38_norm L (fun A hA => (hu A hA).1) ψ hT]
    apply List.prod_eq_one
    intro x hx
    obtain ⟨A, hA, rfl⟩ := List.mem_map.1 hx
    exact (hu A hA).2

/-- An array is accepted without being normalised, and even when it has several columns. -/
theorem C32_array_norm : ∃ (t : St) (A : Mat), create t (.arr A) = some (some A) ∧ innerProd A = 2 ∧ A.cols = 2 := by
  refine ⟨node (some false) 2 false .none none [], ident 2, rfl, ?_, rfl⟩
  simp only [innerProd, Option.getD_none, trace, mul, NMat.hc, ident, min_self, Finset.sum_range_succ, Finset.sum_range_zero]
  simp
  norm_num

/-! ### Inputs that fit are accepted -/

mutual
/-- Every single system has at least two levels. -/
def St.proper : St → Prop
  | node k d _ _ _ s => (k ≠ some true → 2 ≤ d) ∧ (k = some true → s ≠ []) ∧ St.properL s
/-- The same for lists. -/
def St.properL : List St → Prop
  | [] => True
  | t :: r => t.proper ∧ St.properL r
end

theorem pyMax_lt {ns : List ℤ} {d : ℤ} (h : ∀ n ∈ ns, n < d) (hne : ns ≠ []) : ∃ m, pyMax ns = some m ∧ m < d := by
  cases ns with
  | nil => exact absurd rfl hne
  | cons n r =>
    refine ⟨_, rfl, ?_⟩
    have : ∀ (r : List ℤ) (n : ℤ), n < d → (∀ x ∈ r, x < d) → r.foldl max n < d := by
      intro r
      induction r with
      | nil => intro n hn _; simpa using hn
      | cons x r ih =>
        intro n hn hr
        rw [List.foldl_cons]
        exact ih _ (max_lt hn (hr x (by simp))) fun y hy => hr y (by simp [hy])
    exact this r n (h n (by simp)) fun x hx => h x (by simp [hx])

theorem mapM_basis_lt {d : ℕ} : ∀ (items : List (ℤ × ℂ)) (bs : List (Toolbox.Ket d)),
    items.mapM (fun p => Toolbox.basisOpt d p.1) = some bs → ∀ p ∈ items, p.1 < d := by
  intro items bs h p hp
  rw [Toolbox.mapM_option_eq_some] at h
  induction h with
  | nil => simp at hp
  | cons h1 _ ih =>
    rcases List.mem_cons.1 hp with rfl | hp
    · simp only [Toolbox.basisOpt] at h1
      split at h1
      · rename_i hh; exact hh.2
      · cases h1
    · exact ih hp

/-- When `superPos` accepts an input, its largest level is below the dimension. -/
theorem maxInput_lt {d : ℕ} {i : Inp} {pop : Bool} {k : Toolbox.Ket d} (h : Toolbox.superPos d (toExc i) pop = some k) :
    ∃ m, maxInput i = some m ∧ m < d := by
  simp only [Toolbox.superPos, Option.bind_eq_bind, Option.bind_eq_some_iff] at h
  obtain ⟨sts, hsts, bs, hbs, s, hw, _⟩ := h
  have hlt := mapM_basis_lt sts bs hbs
  have hne : sts ≠ [] := by
    rintro rfl
    simp [Toolbox.weightedSum] at hw
  cases i with
  | none => simp [toExc, Toolbox.superPosItems] at hsts
  | arr A => simp [toExc, Toolbox.superPosItems] at hsts
  | int n =>
    simp only [toExc, Toolbox.superPosItems, Option.some.injEq] at hsts
    subst hsts
    exact ⟨n, rfl, hlt (n, 1) (by simp)⟩
  | list l =>
    simp only [toExc] at hsts
    cases hl : ints l with
    | none => simp [hl, Toolbox.superPosItems] at hsts
    | some ns =>
      simp only [hl, Toolbox.superPosItems, Option.some.injEq] at hsts
      subst hsts
      simp only [maxInput, hl]
      apply pyMax_lt
      · intro n hn
        exact hlt (n, 1) (by simp [Toolbox.mem_dedupKeys, hn])
      · rintro rfl
        exact hne rfl
  | dict items =>
    simp only [toExc, Toolbox.superPosItems] at hsts
    have hkeys : sts.map Prod.fst = items.map Prod.fst := by
      split at hsts
      · rw [Toolbox.mapM_option_eq_some] at hsts
        clear hbs hlt hne hw
        induction hsts with
        | nil => rfl
        | cons h1 _ ih =>
          simp only [Option.map_eq_some_iff] at h1
          obtain ⟨c, _, rfl⟩ := h1
          simp [ih]
      · simp only [Option.some.injEq] at hsts; rw [hsts]
    simp only [maxInput, ← hkeys]
    apply pyMax_lt
    · intro n hn
      obtain ⟨p, hp, rfl⟩ := List.mem_map.1 hn
      exact hlt p hp
    · simpa using hne

end Verif.Init
