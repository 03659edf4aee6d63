import Verif.Old.InitProps

/-!
# C99: the states built by the older classes, compared with the newer ones
-/
namespace Verif.OldInit
open NMat
open Verif.Init (Inp orStored toExc ofKet maxInput allSome St)
open OSt

/-- The number. -/
def Dim.num : Dim → ℕ
  | .unset => 0
  | .py n => n
  | .np n => n

mutual
/-- The same systems made of the newer class. -/
def toNew (up : Inp) : OSt → St
  | node k d c o _ s => .node (some k) d.num c (eff up o) none (toNews (eff up o) s)
/-- The same for lists. -/
def toNews (up : Inp) : List OSt → List St
  | [] => []
  | t :: r => toNew up t :: toNews up r
end

mutual
/-- All dimensions are given, as plain integers. -/
def Plain : OSt → Prop
  | node k d _ _ _ s => (k = false → ∃ n, d = .py n) ∧ PlainL s
/-- The same for lists. -/
def PlainL : List OSt → Prop
  | [] => True
  | t :: r => Plain t ∧ PlainL r
end

mutual
/-- `None` occurs nowhere in the input. -/
def noNone : Inp → Prop
  | .none => False
  | .list l => noNoneL l
  | _ => True
/-- The same for lists. -/
def noNoneL : List Inp → Prop
  | [] => True
  | i :: l => noNone i ∧ noNoneL l
end

theorem eff_eq (up : Inp) (o : Option Inp) : eff up o = o.getD up := by cases o <;> rfl

mutual
theorem dimension_plain : ∀ (up : Inp) (t : OSt), Plain t → dimension t = .ok (.py (toNew up t).dimension)
  | up, node true d c o x s, h => by
    unfold dimension toNew St.dimension
    rw [dimProd_plain (eff up o) s 1 h.2, Nat.one_mul]
  | up, node false d c o x s, h => by
    obtain ⟨n, rfl⟩ := h.1 rfl
    unfold dimension toNew St.dimension
    rfl
theorem dimProd_plain : ∀ (up : Inp) (s : List OSt) (a : ℕ), PlainL s → dimProd s (.py a) = .ok (.py (a * St.dimProd (toNews up s)))
  | _, [], a, _ => by unfold dimProd toNews St.dimProd; simp
  | up, t :: r, a, h => by
    unfold dimProd toNews St.dimProd
    rw [dimension_plain up t h.1]
    simp only [Dim.times]
    rw [dimProd_plain up r _ h.2, Nat.mul_assoc]
end

theorem asArr_some {i : Inp} {A : Mat} (h : i.asArr = some A) : i = .arr A := by cases i <;> simp_all [Inp.asArr]

theorem orStored_self (i : Inp) : orStored i i = i := by cases i <;> rfl

theorem toNews_length (up : Inp) : ∀ s : List OSt, (toNews up s).length = s.length
  | [] => rfl
  | t :: r => by simp [toNews, toNews_length up r]

/-- Nothing given stands for what is stored. -/
theorem createA_none (up : Inp) (k : Bool) (d : Dim) (c : Bool) (o : Option Inp) (x : Option Mat) (s : List OSt) :
    createA up (node k d c o x s) .none = createA up (node k d c o x s) (eff up o) := by
  unfold createA
  simp only [orStored_self]
  have e1 : Inp.none.asArr = none := rfl
  have e2 : orStored (eff up o) .none = eff up o := rfl
  rw [e1, e2]
  cases h : (eff up o).asArr with
  | some A => rfl
  | none => rfl

theorem createParts_none (up : Inp) : ∀ s : List OSt,
    createParts up s (s.map fun _ => Inp.none) = createParts up s ((toNews up s).map St.input)
  | [] => rfl
  | node k d c o x s :: r => by
    have : ((toNews up (node k d c o x s :: r)).map St.input) = eff up o :: (toNews up r).map St.input := by
      rw [toNews, toNew]; rfl
    rw [this, List.map_cons]
    unfold createParts
    rw [createA_none, createParts_none up r]

theorem joinA_some (As : List Mat) (ψ : Mat) (h : tensorProd (As.map .mat) = some ψ) : joinA (As.map some) = .ok (some ψ) := by
  have ha : allSome (As.map some) = some As := (Init.allSome_eq _ _).2 rfl
  unfold joinA
  split
  · rename_i heq
    cases As with
    | nil => cases heq
    | cons A r => simp at heq
  · rw [ha]; simp [h]

theorem joinA_eq {sts : List (Option Mat)} {ψ : Mat} (h : joinA sts = .ok (some ψ)) :
    ∃ As : List Mat, sts = As.map some ∧ tensorProd (As.map .mat) = some ψ := by
  unfold joinA at h
  split at h
  · simp at h
  · cases ha : allSome sts with
    | none => rw [ha] at h; cases h
    | some As =>
      rw [ha] at h
      refine ⟨As, (Init.allSome_eq _ _).1 ha, ?_⟩
      cases ht : tensorProd (As.map .mat) with
      | none => simp [ht] at h
      | some B => simp [ht] at h; rw [h]

mutual
/-- **C99 (the newer class as a guide).** Whenever the newer class creates a state from an input, `_createAstate` of the same systems made
of the older classes builds the same state. -/
theorem C99_newer_then_older : ∀ (up : Inp) (t : OSt) (inp : Inp) (ψ : Mat), Plain t → Init.create (toNew up t) inp = some (some ψ) →
    createA up t inp = .ok (some ψ)
  | up, node k d c o x s, inp, ψ, hp, h => by
    have hd := dimension_plain up _ hp
    unfold toNew at h hd
    unfold Init.create at h
    cases hm : maxInput inp with
    | none => simp [hm] at h
    | some m =>
      unfold createA
      cases ha : inp.asArr with
      | some A =>
        simp only [hm, ha] at h
        simp only [hd, useArray, Dim.fits]
        split at h
        · rename_i hr
          simp only [Option.some.injEq] at h
          rw [← hr, h]; simp
        · cases h
      | none =>
        simp only [hm, ha] at h
        cases k with
        | true =>
          simp only [if_true] at h
          cases hi : Init.inputsFor (toNews (eff up o) s) (orStored (eff up o) inp) with
          | none => simp [hi] at h
          | some l =>
            simp only [hi] at h
            cases hs : Init.createSubs (toNews (eff up o) s) l with
            | none => simp [hs] at h
            | some sts =>
              simp only [hs, Init.joinStates] at h
              cases hal : allSome sts with
              | none => simp [hal] at h
              | some As =>
                simp only [hal, Option.map_eq_some_iff, Option.some.injEq] at h
                obtain ⟨A, ht, rfl⟩ := h
                obtain rfl := (Init.allSome_eq sts As).1 hal
                have ih := C99_newer_then_olderL (eff up o) s l As hp.2 hs
                have hj := joinA_some As A ht
                cases ho : orStored (eff up o) inp with
                | none =>
                  rw [ho] at hi
                  simp only [Init.inputsFor, Option.some.injEq] at hi
                  subst hi
                  simp only [Inp.asArr, hd, partInputs, if_true]
                  rw [createParts_none, ih]
                  exact hj
                | list l' =>
                  rw [ho] at hi
                  simp only [Init.inputsFor] at hi
                  split at hi
                  · simp only [Option.some.injEq] at hi
                    subst hi
                    simp only [Inp.asArr, hd, partInputs, if_true]
                    rw [ih]
                    exact hj
                  · cases hi
                | int n => simp [ho, Init.inputsFor] at hi
                | dict n => simp [ho, Init.inputsFor] at hi
                | arr n => simp [ho, Init.inputsFor] at hi
        | false =>
          simp only [Option.some.injEq, Bool.false_eq_true, if_false] at h
          obtain ⟨φ, hφ, rfl⟩ := Init.leafState_some h
          have hna : (orStored (eff up o) inp).asArr = none := by
            cases ho : orStored (eff up o) inp with
            | arr A => simp [ho, toExc, Toolbox.superPos, Toolbox.superPosItems] at hφ
            | _ => rfl
          simp only [hna, hd, Bool.false_eq_true, if_false]
          have hdim : (St.node (some false) d.num c (eff up o) none (toNews (eff up o) s)).dimension = d.num := by
            simp [St.dimension]
          rw [hdim]
          cases ho : orStored (eff up o) inp with
          | none => simp [ho, toExc, Toolbox.superPos, Toolbox.superPosItems] at hφ
          | _ => rw [ho] at hφ; simp [leafA, hφ]
theorem C99_newer_then_olderL : ∀ (up : Inp) (s : List OSt) (l : List Inp) (As : List Mat), PlainL s →
    Init.createSubs (toNews up s) l = some (As.map some) → createParts up s l = .ok (As.map some)
  | _, [], l, As, _, h => by
    unfold toNews Init.createSubs at h
    simp only [Option.some.injEq] at h
    unfold createParts
    rw [← h]
  | _, _ :: _, [], As, _, h => by unfold toNews Init.createSubs at h; cases h
  | up, t :: r, i :: l, As, hp, h => by
    unfold toNews Init.createSubs at h
    cases ht : Init.create (toNew up t) i with
    | none => simp [ht] at h
    | some a =>
      cases hr : Init.createSubs (toNews up r) l with
      | none => simp [ht, hr] at h
      | some as =>
        simp only [ht, hr, Option.some.injEq] at h
        cases As with
        | nil => cases h
        | cons A As =>
          simp only [List.map_cons, List.cons.injEq] at h
          obtain ⟨rfl, rfl⟩ := h
          unfold createParts
          rw [C99_newer_then_older up t i A hp.1 ht, C99_newer_then_olderL up r l As hp.2 hr]
          rfl
end

theorem createParts_length {up : Inp} : ∀ {s : List OSt} {l : List Inp} {sts : List (Option Mat)}, createParts up s l = .ok sts →
    s.length ≤ l.length ∧ sts.length = s.length
  | [], l, sts, h => by unfold createParts at h; cases h; simp
  | t :: r, [], sts, h => by unfold createParts at h; cases h
  | t :: r, i :: l, sts, h => by
    unfold createParts at h
    cases ht : createA up t i with
    | error e => simp [ht] at h
    | ok a =>
      cases hr : createParts up r l with
      | error e => simp [ht, hr] at h
      | ok as =>
        simp only [ht, hr, Except.ok.injEq] at h
        subst h
        have := createParts_length hr
        simp; omega

theorem leafA_some {n : ℕ} {c : Bool} {i : Inp} {ψ : Mat} (h : leafA n c i = .ok (some ψ)) :
    ∃ φ, Toolbox.superPos n (toExc i) (!c) = some φ ∧ ψ = ofKet φ := by
  cases i with
  | none => cases h
  | _ =>
    simp only [leafA] at h
    split at h
    · cases h
    · rename_i k hk
      simp only [Except.ok.injEq, Option.some.injEq] at h
      exact ⟨k, hk, h.symm⟩

mutual
/-- The other direction. -/
theorem older_then_newer : ∀ (up : Inp) (t : OSt) (inp : Inp) (ψ : Mat), Plain t → noNone inp → createA up t inp = .ok (some ψ) →
    Init.create (toNew up t) inp = some (some ψ)
  | up, node k d c o x s, inp, ψ, hp, hn, h => by
    have hd := dimension_plain up _ hp
    have ho : orStored (eff up o) inp = inp := by cases inp <;> first | rfl | exact absurd hn (by simp [noNone])
    unfold createA at h
    rw [ho] at h
    unfold toNew at hd ⊢
    unfold Init.create
    rw [ho]
    cases ha : inp.asArr with
    | some A =>
      simp only [ha, hd, useArray] at h
      obtain rfl := asArr_some ha
      simp only [maxInput]
      by_cases hr : (St.node (some k) d.num c (eff up o) none (toNews (eff up o) s)).dimension = A.rows
      · rw [if_pos (by simpa [Dim.fits] using hr)] at h
        simp only [Except.ok.injEq, Option.some.injEq] at h
        simp only [hr, if_true, h]
      · rw [if_neg (by simpa [Dim.fits] using hr)] at h
        cases h
    | none =>
      simp only [ha, hd] at h
      cases k with
      | true =>
        simp only [if_true] at h
        cases inp with
        | list l =>
          simp only [partInputs] at h
          cases hc : createParts (eff up o) s l with
          | error e => simp [hc] at h
          | ok sts =>
            simp only [hc] at h
            obtain ⟨As, rfl, ht⟩ := joinA_eq h
            have hlen := createParts_length hc
            have ih := older_then_newerL (eff up o) s l As hp.2 hn hc
            have hne : As ≠ [] := by rintro rfl; cases ht
            have hm : ∃ m, maxInput (.list l) = some m := by
              simp only [maxInput]
              cases hl : Init.ints l with
              | none => exact ⟨1, rfl⟩
              | some ns =>
                cases ns with
                | cons n r => exact ⟨_, rfl⟩
                | nil =>
                  exfalso
                  have : l = [] := by
                    cases l with
                    | nil => rfl
                    | cons i r =>
                      cases i <;> simp [Init.ints] at hl
                      split at hl <;> simp at hl
                  subst this
                  have h0 : s.length = 0 := by simpa using hlen.1
                  have : As.length = 0 := by simpa [h0] using hlen.2
                  exact hne (List.length_eq_zero_iff.1 this)
            obtain ⟨m, hm⟩ := hm
            simp only [hm, if_true, Init.inputsFor, toNews_length, hlen.1]
            rw [ih]
            simp only [Init.joinStates, (Init.allSome_eq (As.map some) As).2 rfl, ht]
            rfl
        | none => exact absurd hn (by simp [noNone])
        | int n => simp [partInputs] at h
        | dict n => simp [partInputs] at h
        | arr n => simp [Inp.asArr] at ha
      | false =>
        simp only [Bool.false_eq_true, if_false] at h
        have hdim : (St.node (some false) d.num c (eff up o) none (toNews (eff up o) s)).dimension = d.num := by
          simp [St.dimension]
        rw [hdim] at h
        obtain ⟨φ, hφ, rfl⟩ := leafA_some h
        obtain ⟨m, hm, hlt⟩ := Init.maxInput_lt hφ
        simp only [hm, Option.some.injEq, Bool.false_eq_true, if_false]
        exact Init.leafState_eq hlt hφ
theorem older_then_newerL : ∀ (up : Inp) (s : List OSt) (l : List Inp) (As : List Mat), PlainL s → noNoneL l →
    createParts up s l = .ok (As.map some) → Init.createSubs (toNews up s) l = some (As.map some)
  | _, [], l, As, _, _, h => by
    unfold createParts at h
    simp only [Except.ok.injEq] at h
    unfold toNews Init.createSubs
    rw [← h]
  | _, _ :: _, [], As, _, _, h => by unfold createParts at h; cases h
  | up, t :: r, i :: l, As, hp, hn, h => by
    unfold createParts at h
    cases ht : createA up t i with
    | error e => simp [ht] at h
    | ok a =>
      cases hr : createParts up r l with
      | error e => simp [ht, hr] at h
      | ok as =>
        simp only [ht, hr, Except.ok.injEq] at h
        cases As with
        | nil => cases h
        | cons A As =>
          simp only [List.map_cons, List.cons.injEq] at h
          obtain ⟨rfl, rfl⟩ := h
          unfold toNews Init.createSubs
          rw [older_then_newer up t i A hp.1 hn.1 ht, older_then_newerL up r l As hp.2 hn.2 hr]
          rfl
end

/-- **C99 (same states).** For inputs in which `None` does not occur, and systems whose dimensions are plain integers, the private
`_createAstate` builds a state exactly when the newer class creates one, and then the same. -/
theorem C99_same_partial (up : Inp) (t : OSt) (inp : Inp) (ψ : Mat) (hp : Plain t) (hn : noNone inp) :
    createA up t inp = .ok (some ψ) ↔ Init.create (toNew up t) inp = some (some ψ) :=
  ⟨older_then_newer up t inp ψ hp hn, C99_newer_then_older up t inp ψ hp⟩

theorem leafA_ne_none (n : ℕ) (c : Bool) (i : Inp) : leafA n c i ≠ .ok none := by
  cases i <;> simp only [leafA] <;> first | (intro h; cases h) | (split <;> simp)

theorem useArray_ne_none (d : Except Err Dim) (A : Mat) : useArray d A ≠ .ok none := by
  unfold useArray
  cases d with
  | error e => simp
  | ok D => simp only; split <;> simp

theorem np_of_part {t : OSt} {n : ℕ} (h : dimProd [t] (.py 1) = .ok (.py n)) : ∃ m, dimension t = .ok (.py m) := by
  unfold dimProd at h
  cases hd : dimension t with
  | error e => simp [hd] at h
  | ok D =>
    cases D with
    | py m => exact ⟨m, rfl⟩
    | unset => simp [hd, Dim.times] at h
    | np m => simp [hd, Dim.times, dimProd] at h

/-- **C99 (no state).** `_createAstate` returns `None` exactly when neither the input nor the stored input it stands for is an array and
the dimension is not a plain integer (never given, or a NumPy integer). -/
theorem C99_none_iff : ∀ (up : Inp) (t : OSt) (inp : Inp), createA up t inp = .ok none ↔
    (orStored (t.own.getD up) inp).asArr = none ∧ ∃ d, dimension t = .ok d ∧ ∀ n, d ≠ .py n
  | up, node k d c o x s, inp => by
    have harr : ∀ A, inp.asArr = some A → (orStored (eff up o) inp).asArr = some A := by
      intro A hA; rw [asArr_some hA]; rfl
    unfold createA
    simp only [own, ← eff_eq]
    cases ha : inp.asArr with
    | some A => simp [harr A ha, useArray_ne_none]
    | none =>
      cases hb : (orStored (eff up o) inp).asArr with
      | some A => simp [useArray_ne_none]
      | none =>
        cases hd : dimension (node k d c o x s) with
        | error e => simp
        | ok D =>
          cases D with
          | unset => simp
          | np n => simp
          | py n =>
            simp only [Except.ok.injEq, exists_eq_left', true_and]
            have hr : ¬ ∀ m, Dim.py n ≠ Dim.py m := fun h => h n rfl
            refine ⟨fun h => ?_, fun h => absurd h hr⟩
            exfalso
            cases k with
            | false => simp only [Bool.false_eq_true, if_false] at h; exact leafA_ne_none _ _ _ h
            | true =>
              simp only [if_true] at h
              cases hpi : partInputs s (orStored (eff up o) inp) with
              | error e => simp [hpi] at h
              | ok l =>
                simp only [hpi] at h
                cases hc : createParts (eff up o) s l with
                | error e => simp [hc] at h
                | ok sts =>
                  simp only [hc] at h
                  have hsts : sts = [none] := by
                    unfold joinA at h
                    split at h
                    · rfl
                    · split at h
                      · cases h
                      · split at h <;> simp at h
                  subst hsts
                  unfold dimension at hd
                  match s, l, hc, hd with
                  | [], _, hc, _ => unfold createParts at hc; cases hc
                  | _ :: _, [], hc, _ => unfold createParts at hc; cases hc
                  | t :: u :: r, i :: l, hc, _ =>
                    have := (createParts_length hc).2
                    simp at this
                  | [t], i :: l, hc, hd =>
                    unfold createParts at hc
                    cases ht : createA (eff up o) t i with
                    | error e => simp [ht] at hc
                    | ok a =>
                      simp only [ht, createParts, Except.ok.injEq, List.cons.injEq, and_true] at hc
                      subst hc
                      obtain ⟨_, D, hD, hnp⟩ := (C99_none_iff (eff up o) t i).1 ht
                      obtain ⟨m, hm⟩ := np_of_part hd
                      rw [hD] at hm
                      cases hm
                      exact hnp m rfl

/-- **C99 (`None`).** Nothing given stands for the stored input, and for a system that was never assigned one that is the input of the
composite around it, as a whole. -/
theorem C99_none_stands (up : Inp) (t : OSt) : createA up t .none = createA up t (t.own.getD up) := by
  cases t with
  | node k d c o x s => rw [createA_none, eff_eq]; rfl

/-- **C99 (what is built).** For inputs without `None`, the state built is the tensor product, from left to right, of the states of the
single systems the input stands for, at any depth. -/
theorem C99_product (up : Inp) (t : OSt) (inp : Inp) (ψ : Mat) (hp : Plain t) (hn : noNone inp) (h : createA up t inp = .ok (some ψ)) :
    (∃ L, Init.Factors (toNew up t) inp L ∧ tensorProd (L.map .mat) = some ψ) ∧ dimension t = .ok (.py ψ.rows) := by
  have h' := older_then_newer up t inp ψ hp hn h
  refine ⟨Init.C32_product _ _ _ h', ?_⟩
  rw [Init.C32_dimension _ _ _ h']
  exact dimension_plain up t hp

/-- **C99 (arrays).** An array is taken exactly if it has as many rows as the system has dimensions, for Python and numpy integers alike;
a system whose dimension is not set takes none. -/
theorem C99_array (up : Inp) (t : OSt) (A : Mat) :
    (createA up t (.arr A) = .ok (some A) ↔ dimension t = .ok (.py A.rows) ∨ dimension t = .ok (.np A.rows)) ∧
    ∀ d, dimension t = .ok d → d ≠ .py A.rows → d ≠ .np A.rows → createA up t (.arr A) = .error .value := by
  cases t with
  | node k d c o x s =>
    have e : createA up (node k d c o x s) (.arr A) = useArray (dimension (node k d c o x s)) A := by
      rw [createA]; rfl
    rw [e]
    cases dimension (node k d c o x s) with
    | error e => exact ⟨⟨fun h => (by cases h), fun h => (by rcases h with h | h <;> cases h)⟩, fun d h => by cases h⟩
    | ok D =>
      cases D with
      | unset => exact ⟨⟨fun h => (by cases h), fun h => (by rcases h with h | h <;> cases h)⟩, fun d h _ _ => by cases h; rfl⟩
      | py n =>
        by_cases hn : n = A.rows
        · subst hn
          exact ⟨⟨fun _ => Or.inl rfl, fun _ => by simp [useArray, Dim.fits]⟩, fun d h h1 _ => by cases h; exact absurd rfl h1⟩
        · refine ⟨⟨fun h => by simp [useArray, Dim.fits, hn] at h, fun h => ?_⟩, fun d h _ _ => by cases h; simp [useArray, Dim.fits, hn]⟩
          rcases h with h | h
          · cases h; exact absurd rfl hn
          · cases h
      | np n =>
        by_cases hn : n = A.rows
        · subst hn
          exact ⟨⟨fun _ => Or.inr rfl, fun _ => by simp [useArray, Dim.fits]⟩, fun d h _ h1 => by cases h; exact absurd rfl h1⟩
        · refine ⟨⟨fun h => by simp [useArray, Dim.fits, hn] at h, fun h => ?_⟩, fun d h _ _ => by cases h; simp [useArray, Dim.fits, hn]⟩
          rcases h with h | h
          · cases h
          · cases h; exact absurd rfl hn

example : createA .none (node false (.np 2) false none none []) (.arr ⟨2, 1, fun _ _ => 1⟩) = .ok (some ⟨2, 1, fun _ _ => 1⟩) :=
  (C99_array _ _ _).1.2 (Or.inr rfl)

/-! ### Instances -/

/-- A two-level system of the older class. -/
def oldQubit : OSt := node false (.py 2) false none none []
/-- Two of them. -/
def oldPair : OSt := node true .unset false none none [oldQubit, oldQubit]

/-- A pair can be reached. -/
theorem reach_pair : Reach oldPair := by
  have q : Reach oldQubit := Reach.dim _ [] (.py 2) .single
  exact Reach.add _ oldQubit [] (Reach.add _ oldQubit [] .comp q) q

example : (assign oldPair [] (.list [.int 0, .int 1])).1 = some .value ∧ (assign oldPair [1] (.int 1)).1 = some .attr := by
  constructor
  · rw [C99_assign_raises _ _ _ (by rfl)]; simp
  · rw [C99_assign_raises _ _ _ (by rfl)]; simp [maxInput]

example : read (assign oldPair [1] (.int 1)).2 [0] = .error .value :=
  C99_read_raises (.assign _ _ _ reach_pair (by rfl)) [0] (by
    have : (assign oldPair [1] (.int 1)).2 = change (setInput (.int 1)) (change clearState oldPair []) [1] := by
      unfold assign
      simp only [maxInput]
      rw [callCreate_raises _ _ _ (by rfl)]
      simp
    rw [this]; rfl)

example : copy oldPair = .ok () ∧ copy (assign oldPair [1] (.int 1)).2 ≠ .ok () :=
  ⟨by rw [C99_copy_iff]; simp [oldPair, oldQubit, Holds, HoldsL], C99_copy_after _ _ _ (by rfl) (by simp [maxInput]) (by simp)⟩

/-- The private method does build the state that the property never gives. -/
theorem oldPair_state : createA .none oldPair (.list [.int 0, .int 1]) = .ok (some (kron (Init.level 0) (Init.level 1))) := by
  apply C99_newer_then_older
  · simp [oldPair, oldQubit, Plain, PlainL]
  · exact Init.create_two 0 false .none .none .none .none none none none 0 1 (by omega) (by omega)

/-- False for the code: a pair of two-level systems, for which `_createAstate` builds the state asked for, while assigning it raises and
reading it afterwards raises too. -/
theorem C99_state_never_set : ∃ (t : OSt) (inp : Inp) (ψ : Mat), Reach t ∧ createA .none t inp = .ok (some ψ) ∧
    (assign t [] inp).1 = some .value ∧ read (assign t [] inp).2 [] = .error .value :=
  ⟨oldPair, .list [.int 0, .int 1], _, reach_pair, oldPair_state, by rw [C99_assign_raises _ _ _ (by rfl)]; simp,
    C99_read_raises (.assign _ _ _ reach_pair (by rfl)) [] (by cases (assign oldPair [] (.list [.int 0, .int 1])).2; rfl)⟩

example : createA .none (node false (.np 2) false none none []) (.int 0) = .ok none := by
  rw [C99_none_iff]
  exact ⟨rfl, .np 2, rfl, by simp⟩

end Verif.OldInit
