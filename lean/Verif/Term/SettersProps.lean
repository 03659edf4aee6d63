import Verif.Term.Setters
import Mathlib.Data.List.Forall2
import Mathlib.Tactic.Common

/-!
# C91: statements
-/
namespace Verif.Term

variable {Op : Type}

/-! ### Specification -/

/-- The dimension of the system allows the operator: any for others, 2 (or the 1 of a system without dimension) for Pauli operators. -/
def Allowed (pauli : Op → Bool) (dims : Nat → Nat) (s : Nat) (o : Option Op) : Prop :=
  ∀ p, o = some p → pauli p = true → dims s = 2 ∨ dims s = 1

/-- `factor` is the one of operator `o` to the power `r` of system `s`. -/
def Is (pauli : Op → Bool) (dims : Nat → Nat) (x : Nat × Option Op × Int) (f : Factor Op) : Prop :=
  f.sys = x.1 ∧ f.dim = dims x.1 ∧ x.2.1 = some f.oper ∧ f.order = x.2.2 ∧ dims x.1 ≠ 1 ∧ (pauli f.oper = true → dims x.1 = 2)

/-- The operators as the attribute `operator` gives them for the `n` systems. -/
def T.opers (t : T Op) (n : Nat) : List (Option Op) :=
  match t.oper with
  | .one o => List.replicate n o
  | .many l => l

/-- The orders as the attribute `order` gives them for the `n` systems. -/
def T.orders (t : T Op) (n : Nat) : List Int :=
  match t.order with
  | .one r => List.replicate n r
  | .many l => l

/-- The systems in `qSystem`. -/
def T.systems (t : T Op) : List Nat :=
  match t.qsys with
  | none => []
  | some q => q.toList

/-- Systems, operators and orders as the attributes say. -/
def T.says (t : T Op) : List (Nat × Option Op × Int) :=
  t.systems.zip ((t.opers t.systems.length).zip (t.orders t.systems.length))

/-- A failed assignment of operators to a coupling because of a Pauli operator: of this kind no command of the program is. -/
def NoPauliFailure (pauli : Op → Bool) (st : St Op) : List (Cmd Op) → Prop
  | [] => True
  | c :: cs => (∀ l os, st.t.qsys = some (.many l) → c = .operator (.many os) → os.length = l.length → List.Forall₂ (Allowed pauli st.dims) l os) ∧
      NoPauliFailure pauli (exec pauli st c).2 cs

/-! ### Shapes -/

/-- What holds of every term. -/
def Shape (t : T Op) : Prop :=
  match t.qsys with
  | none => t.oper = .one none ∧ t.order = .one 1 ∧ t.subs = []
  | some (.one _) => (∃ o, t.oper = .one o) ∧ (∃ r, t.order = .one r) ∧ t.subs = []
  | some (.many l) => t.subs.map Sub.sys = l ∧ (t.oper = .one none ∨ ∃ v, t.oper = .many v ∧ v.length = l.length) ∧
      (t.order = .one 1 ∨ ∃ r, t.order = .many r ∧ r.length = l.length)

theorem assignSubs_ok {α : Type} (set : Sub Op → α → Sub Op) : ∀ (ss : List (Sub Op)) (as : List α), as.length = ss.length →
    assignSubs set ss as = (.ok (), List.zipWith set ss as)
  | [], _, _ => by simp [assignSubs]
  | s :: ss, [], h => by simp at h
  | s :: ss, a :: as, h => by simp [assignSubs, assignSubs_ok set ss as (by simpa using h)]

theorem zipWith_sys {α : Type} (set : Sub Op → α → Sub Op) (hs : ∀ s a, (set s a).sys = s.sys) : ∀ (ss : List (Sub Op)) (as : List α),
    as.length = ss.length → (List.zipWith set ss as).map Sub.sys = ss.map Sub.sys
  | [], _, _ => by simp
  | s :: ss, [], h => by simp at h
  | s :: ss, a :: as, h => by simp [hs, zipWith_sys set hs ss as (by simpa using h)]

theorem zipWith_new {α : Type} (set : Sub Op → α → Sub Op) (g : Sub Op → α) (hs : ∀ s a, g (set s a) = a) : ∀ (ss : List (Sub Op)) (as : List α),
    as.length = ss.length → (List.zipWith set ss as).map g = as
  | [], [], _ => rfl
  | [], _ :: _, h => by simp at h
  | s :: ss, [], h => by simp at h
  | s :: ss, a :: as, h => by simp [hs, zipWith_new set g hs ss as (by simpa using h)]

theorem zipWith_old {α β : Type} (set : Sub Op → α → Sub Op) (g : Sub Op → β) (hs : ∀ s a, g (set s a) = g s) : ∀ (ss : List (Sub Op)) (as : List α),
    as.length = ss.length → (List.zipWith set ss as).map g = ss.map g
  | [], _, _ => by simp
  | s :: ss, [], h => by simp at h
  | s :: ss, a :: as, h => by simp [hs, zipWith_old set g hs ss as (by simpa using h)]

theorem Shape.length {t : T Op} {l : List Nat} (h : Shape t) (hq : t.qsys = some (.many l)) : t.subs.length = l.length := by
  rw [Shape, hq] at h
  rw [← h.1, List.length_map]

/-- The setter `order` in one formula. -/
theorem setOrder_eq (t : T Op) (v : Option (Vals Int)) (h : Shape t) : setOrder t v =
    match t.qsys, v.getD (.one 1) with
    | none, _ => (.error .value, t)
    | some (.one _), .one r => (.ok (), { t with order := .one r })
    | some (.one _), .many _ => (.error .type, t)
    | some (.many _), .one _ => (.error .type, t)
    | some (.many l), .many rs => if rs.length = l.length then
        (.ok (), { t with order := .many rs, subs := List.zipWith Sub.withOrder t.subs rs }) else (.error .value, t) := by
  unfold setOrder
  dsimp only
  generalize v.getD (.one 1) = w
  cases hq : t.qsys with
  | none => rfl
  | some q =>
    cases q with
    | one s => cases w <;> simp [checkMultiple]
    | many l =>
      cases w with
      | one r => rfl
      | many rs =>
        simp only [checkMultiple]
        by_cases hl : rs.length = l.length
        · rw [if_pos hl, if_pos hl]
          have := h.length hq
          simp [Vals.toList, assignSubs_ok Sub.withOrder t.subs rs (by omega)]
        · rw [if_neg hl, if_neg hl]

theorem dimFits_iff (pauli : Op → Bool) (dims : Nat → Nat) (s : Nat) (o : Option Op) : dimFits pauli (dims s) o = true ↔ Allowed pauli dims s o := by
  cases o with
  | none => simp [dimFits, Allowed]
  | some p =>
    simp only [dimFits, Allowed, Option.some.injEq, forall_eq']
    cases pauli p <;> simp

theorem pauliDims_ok (pauli : Op → Bool) (dims : Nat → Nat) : ∀ (l : List Nat) (os : List (Option Op)), os.length = l.length →
    (pauliDims pauli dims l os = .ok () ∧ List.Forall₂ (Allowed pauli dims) l os ∨
     pauliDims pauli dims l os = .error .value ∧ ¬ List.Forall₂ (Allowed pauli dims) l os)
  | [], [], _ => by simp [pauliDims]
  | [], _ :: _, h => by simp at h
  | _ :: _, [], h => by simp at h
  | s :: l, o :: os, h => by
    simp only [pauliDims, List.forall₂_cons]
    by_cases hf : dimFits pauli (dims s) o = true
    · rw [if_pos hf]
      rcases pauliDims_ok pauli dims l os (by simpa using h) with ⟨h1, h2⟩ | ⟨h1, h2⟩
      · exact .inl ⟨h1, (dimFits_iff _ _ _ _).mp hf, h2⟩
      · exact .inr ⟨h1, fun h => h2 h.2⟩
    · rw [if_neg hf]
      exact .inr ⟨rfl, fun h => hf ((dimFits_iff _ _ _ _).mpr h.1)⟩

/-- The term after its sub-terms got their operators. -/
def withOpers (t : T Op) (os : List (Option Op)) : T Op := { t with subs := List.zipWith Sub.withOper t.subs os }

theorem setOperator_one (pauli : Op → Bool) (dims : Nat → Nat) (t : T Op) (h : Shape t) (s : Nat) (hq : t.qsys = some (.one s)) (o : Option Op) :
    setOperator pauli dims t (.one o) = if dimFits pauli (dims s) o then (.ok (), { t with oper := .one o }) else (.error .value, t) := by
  obtain ⟨q, op, r, ss, b⟩ := t
  dsimp only at hq
  subst hq
  obtain ⟨-, ⟨r, rfl⟩, -⟩ := h
  simp only [setOperator, checkMultiple, isCorrectPauliDim, Bool.false_eq_true, if_false]
  by_cases hf : dimFits pauli (dims s) o = true
  · simp only [hf, if_true, defaultOrder]
  · simp only [hf, Bool.false_eq_true, if_false]

theorem zipWith_ones : ∀ (ss : List (Sub Op)) (os : List (Option Op)), os.length = ss.length →
    List.zipWith Sub.withOrder ss (os.map fun _ => 1) = ss.map fun s => s.withOrder 1
  | [], _, _ => by simp
  | s :: ss, [], h => by simp at h
  | s :: ss, o :: os, h => by
    rw [List.map_cons, List.zipWith_cons_cons, zipWith_ones ss os (by simpa using h), List.map_cons]

theorem setOperator_many (pauli : Op → Bool) (dims : Nat → Nat) (t : T Op) (h : Shape t) (l : List Nat) (hq : t.qsys = some (.many l))
    (os : List (Option Op)) (hl : os.length = l.length) :
    (List.Forall₂ (Allowed pauli dims) l os → setOperator pauli dims t (.many os) = (.ok (), { withOpers t os with
        oper := .many os
        order := .many (t.orders l.length)
        subs := match t.order with
          | .one _ => (withOpers t os).subs.map fun s => s.withOrder 1
          | .many _ => (withOpers t os).subs })) ∧
    (¬ List.Forall₂ (Allowed pauli dims) l os → setOperator pauli dims t (.many os) = (.error .value, withOpers t os)) := by
  have hls := h.length hq
  obtain ⟨q, op, r, ss, b⟩ := t
  dsimp only at hq hls
  subst hq
  have e : setOperator pauli dims ⟨some (.many l), op, r, ss, b⟩ (.many os) = match pauliDims pauli dims l os with
      | .error e => (.error e, ⟨some (.many l), op, r, List.zipWith Sub.withOper ss os, b⟩)
      | .ok _ => defaultOrder ⟨some (.many l), .many os, r, List.zipWith Sub.withOper ss os, b⟩ (.many os) := by
    simp only [setOperator, checkMultiple, if_pos hl, isCorrectPauliDim, Vals.toList, if_true, assignSubs_ok Sub.withOper ss os (by omega)]
    cases pauliDims pauli dims l os <;> rfl
  rw [e]
  have hz : (List.zipWith Sub.withOper ss os).length = l.length := by simp; omega
  obtain ⟨h1, h2, h3⟩ := h
  rcases pauliDims_ok pauli dims l os hl with ⟨k1, k2⟩ | ⟨k1, k2⟩
  · refine ⟨fun _ => ?_, fun hn => absurd k2 hn⟩
    rw [k1]
    rcases h3 with ho | ⟨rs, ho, hr⟩
    · dsimp only at ho
      subst ho
      have hz' : (os.map fun _ => (1 : Int)).length = l.length := by simpa using hl
      simp only [defaultOrder, if_true, setOrder, checkMultiple, Option.getD_some, if_pos hz', Vals.toList,
        assignSubs_ok Sub.withOrder (List.zipWith Sub.withOper ss os) (os.map fun _ => (1 : Int)) (by omega), withOpers, T.orders]
      rw [zipWith_ones _ _ (by omega), ← hl, List.map_const']
    · dsimp only at ho
      subst ho
      rfl
  · exact ⟨fun hn => absurd hn k2, fun _ => by rw [k1]; rfl⟩

theorem setOperator_bad (pauli : Op → Bool) (dims : Nat → Nat) (t : T Op) (v : Vals (Option Op)) (e : Err) (h : checkMultiple t.qsys v = .error e) :
    setOperator pauli dims t v = (.error e, t) := by
  unfold setOperator; rw [h]

theorem shape_exec (pauli : Op → Bool) (st : St Op) (h : Shape st.t) (c : Cmd Op) : Shape (exec pauli st c).2.t := by
  obtain ⟨t, dims⟩ := st
  change Shape t at h
  cases c with
  | dimension s d => exact h
  | qSystem q =>
    cases q with
    | one s => exact ⟨⟨none, rfl⟩, ⟨1, rfl⟩, rfl⟩
    | many l =>
      show Shape (setQSystem t (.many l)).2
      unfold setQSystem
      dsimp only
      by_cases hs : t.super = true
      · rw [if_pos hs]
        exact ⟨by simp [Function.comp_def], .inl rfl, .inl rfl⟩
      · rw [if_neg hs]; exact h
  | order v =>
    show Shape (setOrder t v).2
    rw [setOrder_eq _ _ h]
    generalize v.getD (.one 1) = w
    obtain ⟨q, op, r, ss, b⟩ := t
    dsimp only
    rcases q with _ | s | l
    · exact h
    · cases w with
      | one r => exact ⟨h.1, ⟨r, rfl⟩, h.2.2⟩
      | many rs => exact h
    · cases w with
      | one r => exact h
      | many rs =>
        dsimp only
        by_cases hl : rs.length = l.length
        · have hls := h.length rfl
          dsimp only at hls
          rw [if_pos hl]
          exact ⟨(zipWith_sys Sub.withOrder (fun _ _ => rfl) _ _ (by omega)).trans h.1, h.2.1, .inr ⟨rs, rfl, hl⟩⟩
        · rw [if_neg hl]; exact h
  | operator v =>
    show Shape (setOperator pauli dims t v).2
    cases hc : checkMultiple t.qsys v with
    | error e => rw [setOperator_bad pauli dims t v e hc]; exact h
    | ok x =>
      obtain ⟨q, op, r, ss, b⟩ := t
      rcases q with _ | s | l
      · cases hc
      · cases v with
        | many os => cases hc
        | one o =>
          rw [setOperator_one pauli dims _ h s rfl]
          by_cases hf : dimFits pauli (dims s) o = true
          · rw [if_pos hf]; exact ⟨⟨o, rfl⟩, h.2⟩
          · rw [if_neg hf]; exact h
      · cases v with
        | one o => cases hc
        | many os =>
          have hls := h.length rfl
          dsimp only at hls
          have hl : os.length = l.length := by
            by_contra hn
            simp only [checkMultiple, if_neg hn] at hc
            cases hc
          have hz : (List.zipWith Sub.withOper ss os).map Sub.sys = l :=
            (zipWith_sys Sub.withOper (fun _ _ => rfl) ss os (by omega)).trans h.1
          have hm := setOperator_many pauli dims _ h l rfl os hl
          by_cases hf : List.Forall₂ (Allowed pauli dims) l os
          · rw [hm.1 hf]
            refine ⟨?_, .inr ⟨os, rfl, hl⟩, .inr ⟨_, rfl, ?_⟩⟩
            · cases r with
              | one r =>
                show ((List.zipWith Sub.withOper ss os).map fun s => s.withOrder 1).map Sub.sys = l
                rw [← hz, List.map_map]
                rfl
              | many r => exact hz
            · rcases h.2.2 with ho | ⟨r', ho, hr⟩
              · dsimp only at ho
                subst ho; simp [T.orders]
              · dsimp only at ho
                subst ho; exact hr
          · rw [hm.2 hf]
            exact ⟨hz, h.2⟩

theorem shape_run (pauli : Op → Bool) (cs : List (Cmd Op)) : ∀ st : St Op, Shape st.t → Shape (run pauli st cs).t := by
  induction cs with
  | nil => exact fun st h => h
  | cons c cs ih => exact fun st h => ih _ (shape_exec pauli st h c)

theorem shape_new (b : Bool) : Shape (T.new Op b) := ⟨rfl, rfl, rfl⟩

/-! ### The sub-terms agree with the term -/

/-- The sub-terms of a coupling have the operators and orders of the term. -/
def Agree (t : T Op) : Prop :=
  ∀ l, t.qsys = some (.many l) → t.subs.map Sub.oper = t.opers l.length ∧ t.subs.map Sub.order = t.orders l.length

theorem agree_exec (pauli : Op → Bool) (st : St Op) (h : Shape st.t) (ha : Agree st.t) (c : Cmd Op)
    (hc : ∀ l os, st.t.qsys = some (.many l) → c = .operator (.many os) → os.length = l.length → List.Forall₂ (Allowed pauli st.dims) l os) :
    Agree (exec pauli st c).2.t := by
  obtain ⟨t, dims⟩ := st
  change Shape t at h
  change Agree t at ha
  dsimp only at hc
  cases c with
  | dimension s d => exact ha
  | qSystem q =>
    cases q with
    | one s => intro l hl; cases hl
    | many l =>
      show Agree (setQSystem t (.many l)).2
      unfold setQSystem
      dsimp only
      by_cases hs : t.super = true
      · rw [if_pos hs]
        intro l' hl
        cases hl
        simp [T.opers, T.orders, Function.comp_def, List.map_const']
      · rw [if_neg hs]; exact ha
  | order v =>
    show Agree (setOrder t v).2
    rw [setOrder_eq _ _ h]
    generalize v.getD (.one 1) = w
    obtain ⟨q, op, r, ss, b⟩ := t
    dsimp only
    rcases q with _ | s | l
    · exact ha
    · cases w with
      | one r => intro l hl; cases hl
      | many rs => exact ha
    · cases w with
      | one r => exact ha
      | many rs =>
        dsimp only
        by_cases hl : rs.length = l.length
        · have hls := h.length rfl
          dsimp only at hls
          rw [if_pos hl]
          intro l' hl'
          cases hl'
          exact ⟨(zipWith_old Sub.withOrder Sub.oper (fun _ _ => rfl) _ _ (by omega)).trans (ha l rfl).1,
            zipWith_new Sub.withOrder Sub.order (fun _ _ => rfl) _ _ (by omega)⟩
        · rw [if_neg hl]; exact ha
  | operator v =>
    show Agree (setOperator pauli dims t v).2
    cases hk : checkMultiple t.qsys v with
    | error e => rw [setOperator_bad pauli dims t v e hk]; exact ha
    | ok x =>
      obtain ⟨q, op, r, ss, b⟩ := t
      rcases q with _ | s | l
      · cases hk
      · cases v with
        | many os => cases hk
        | one o =>
          rw [setOperator_one pauli dims _ h s rfl]
          by_cases hf : dimFits pauli (dims s) o = true
          · rw [if_pos hf]; intro l hl; cases hl
          · rw [if_neg hf]; exact ha
      · cases v with
        | one o => cases hk
        | many os =>
          have hls := h.length rfl
          dsimp only at hls
          have hl : os.length = l.length := by
            by_contra hn
            simp only [checkMultiple, if_neg hn] at hk
            cases hk
          rw [(setOperator_many pauli dims _ h l rfl os hl).1 (hc l os rfl rfl hl)]
          intro l' hl'
          cases hl'
          have h1 : (List.zipWith Sub.withOper ss os).map Sub.oper = os := zipWith_new _ Sub.oper (fun _ _ => rfl) _ _ (by omega)
          have h2 : (List.zipWith Sub.withOper ss os).map Sub.order = ss.map Sub.order := zipWith_old Sub.withOper Sub.order (fun _ _ => rfl) ss os (by omega)
          rcases h.2.2 with ho | ⟨r', ho, hr⟩
          · dsimp only at ho
            subst ho
            constructor
            · show ((List.zipWith Sub.withOper ss os).map fun s => s.withOrder 1).map Sub.oper = os
              rw [List.map_map]; exact h1
            · show ((List.zipWith Sub.withOper ss os).map fun s => s.withOrder 1).map Sub.order = List.replicate l.length 1
              rw [List.map_map]
              simp only [Function.comp_def, Sub.withOrder, List.map_const']
              congr 1
              simp; omega
          · dsimp only at ho
            subst ho
            exact ⟨h1, h2.trans (ha l rfl).2⟩

theorem agree_run (pauli : Op → Bool) (cs : List (Cmd Op)) : ∀ st : St Op, Shape st.t → Agree st.t → NoPauliFailure pauli st cs →
    Agree (run pauli st cs).t := by
  induction cs with
  | nil => exact fun st _ ha _ => ha
  | cons c cs ih => exact fun st h ha hn => ih _ (shape_exec pauli st h c) (agree_exec pauli st h ha c hn.1) hn.2

theorem dimInput_iff (pauli : Op → Bool) (dims : Nat → Nat) (s : Nat) (o : Option Op) (r : Int) (f : Factor Op) :
    dimInput pauli dims s o r = .ok f ↔ Is pauli dims (s, o, r) f := by
  unfold dimInput Is
  dsimp only
  by_cases h1 : dims s = 1
  · simp [h1]
  · rw [if_neg h1]
    cases o with
    | none => simp
    | some p =>
      dsimp only
      have hd : dimFits pauli (dims s) (some p) = true ↔ (pauli p = true → dims s = 2) := by
        rw [dimFits_iff]; simp [Allowed, h1]
      by_cases hf : dimFits pauli (dims s) (some p) = true
      · rw [if_pos hf]
        have := hd.mp hf
        constructor
        · intro h; cases h; exact ⟨rfl, rfl, rfl, rfl, h1, this⟩
        · rintro ⟨a, b, c, d, -, -⟩
          obtain ⟨fs, fd, fo, fr⟩ := f
          cases c
          dsimp only at a b d
          subst a; subst b; subst d; rfl
      · rw [if_neg hf]
        simp only [reduceCtorEq, false_iff]
        rintro ⟨-, -, c, -, -, e⟩
        cases c
        exact hf (hd.mpr e)

theorem subFactors_iff (pauli : Op → Bool) (dims : Nat → Nat) : ∀ (ss : List (Sub Op)) (fs : List (Factor Op)),
    subFactors pauli dims ss = .ok fs ↔ List.Forall₂ (Is pauli dims) (ss.map fun s => (s.sys, s.oper, s.order)) fs
  | [], fs => by
    simp only [subFactors, Except.ok.injEq, List.map_nil, List.forall₂_nil_left_iff]
    exact eq_comm
  | s :: ss, fs => by
    simp only [subFactors, List.map_cons, List.forall₂_cons_left_iff]
    cases hd : dimInput pauli dims s.sys s.oper s.order with
    | error e =>
      simp only [reduceCtorEq, false_iff]
      rintro ⟨f, fs', hf, -⟩
      rw [← dimInput_iff, hd] at hf; cases hf
    | ok f =>
      have hf := (dimInput_iff pauli dims s.sys s.oper s.order f).mp hd
      have ih := subFactors_iff pauli dims ss
      dsimp only
      cases hs : subFactors pauli dims ss with
      | error e =>
        simp only [reduceCtorEq, false_iff]
        rintro ⟨f, fs', -, h, -⟩
        rw [← ih, hs] at h; cases h
      | ok gs =>
        constructor
        · intro h; cases h; exact ⟨f, gs, hf, (ih gs).mp hs, rfl⟩
        · rintro ⟨f', fs', h1, h2, rfl⟩
          rw [← dimInput_iff, hd] at h1; cases h1
          rw [← ih, hs] at h2; cases h2
          rfl

/-- Why there is no factor: no operator is a TypeError, no dimension or a Pauli operator for another dimension than 2 is a ValueError. -/
def Fails (pauli : Op → Bool) (dims : Nat → Nat) (x : Nat × Option Op × Int) : Err → Prop
  | .type => dims x.1 ≠ 1 ∧ x.2.1 = none
  | .value => dims x.1 = 1 ∨ ∃ p, x.2.1 = some p ∧ pauli p = true ∧ dims x.1 ≠ 2
  | .index => False

theorem dimInput_error (pauli : Op → Bool) (dims : Nat → Nat) (s : Nat) (o : Option Op) (r : Int) (e : Err) :
    dimInput pauli dims s o r = .error e ↔ Fails pauli dims (s, o, r) e := by
  unfold dimInput Fails
  by_cases h1 : dims s = 1
  · cases e <;> simp [h1]
  · rw [if_neg h1]
    cases o with
    | none => cases e <;> simp [h1]
    | some p =>
      dsimp only
      have hd : dimFits pauli (dims s) (some p) = true ↔ (pauli p = true → dims s = 2) := by
        rw [dimFits_iff]; simp [Allowed, h1]
      by_cases hf : dimFits pauli (dims s) (some p) = true
      · rw [if_pos hf]
        have := hd.mp hf
        cases e <;> simp_all
      · rw [if_neg hf]
        have : pauli p = true ∧ dims s ≠ 2 := by
          by_contra hc
          exact hf (hd.mpr fun hp => by by_contra h2; exact hc ⟨hp, h2⟩)
        cases e <;> simp [h1, this]

theorem subFactors_error (pauli : Op → Bool) (dims : Nat → Nat) (e : Err) : ∀ ss : List (Sub Op), subFactors pauli dims ss = .error e ↔
    ∃ pre x post, (ss.map fun s => (s.sys, s.oper, s.order)) = pre ++ x :: post ∧ (∀ y ∈ pre, ∃ f, Is pauli dims y f) ∧ Fails pauli dims x e
  | [] => by
    simp only [subFactors, reduceCtorEq, List.map_nil, false_iff]
    rintro ⟨pre, x, post, h, -⟩
    cases pre <;> cases h
  | s :: ss => by
    simp only [subFactors, List.map_cons]
    have ih := subFactors_error pauli dims e ss
    cases hd : dimInput pauli dims s.sys s.oper s.order with
    | error e' =>
      have hf := (dimInput_error _ _ _ _ _ _).mp hd
      constructor
      · intro h; cases h; exact ⟨[], _, _, rfl, fun y hy => (by cases hy), hf⟩
      · rintro ⟨pre, x, post, h, h1, h2⟩
        cases pre with
        | nil => cases h; rw [← dimInput_error, hd] at h2; cases h2; rfl
        | cons y pre =>
          rw [List.cons_append, List.cons.injEq] at h
          obtain ⟨f, hf⟩ := h1 _ List.mem_cons_self
          rw [← h.1] at hf
          rw [← dimInput_iff, hd] at hf; cases hf
    | ok f =>
      have hf := (dimInput_iff _ _ _ _ _ _).mp hd
      have hs : subFactors pauli dims (s :: ss) = .error e ↔ subFactors pauli dims ss = .error e := by
        simp only [subFactors, hd]
        cases subFactors pauli dims ss <;> simp
      simp only [subFactors, hd] at hs
      rw [hs, ih]
      constructor
      · rintro ⟨pre, x, post, h, h1, h2⟩
        refine ⟨_ :: pre, x, post, by rw [h]; rfl, fun y hy => ?_, h2⟩
        rcases List.mem_cons.mp hy with rfl | hy
        · exact ⟨f, hf⟩
        · exact h1 y hy
      · rintro ⟨pre, x, post, h, h1, h2⟩
        cases pre with
        | nil =>
          cases h
          rw [← dimInput_error, hd] at h2; cases h2
        | cons y pre =>
          rw [List.cons_append, List.cons.injEq] at h
          exact ⟨pre, x, post, h.2, fun y hy => h1 y (List.mem_cons_of_mem _ hy), h2⟩

theorem zip_subs : ∀ (ss : List (Sub Op)), (ss.map fun s => (s.sys, s.oper, s.order)) =
    (ss.map Sub.sys).zip ((ss.map Sub.oper).zip (ss.map Sub.order))
  | [] => rfl
  | s :: ss => by simp [zip_subs ss]

theorem says_subs (t : T Op) (h : Shape t) (ha : Agree t) (l : List Nat) (hqs : t.qsys = some (.many l)) :
    t.says = t.subs.map fun s => (s.sys, s.oper, s.order) := by
  rw [zip_subs, (ha l hqs).1, (ha l hqs).2]
  rw [Shape, hqs] at h
  rw [h.1, T.says]
  have : t.systems = l := by rw [T.systems, hqs]; rfl
  rw [this]

theorem construct_iff (pauli : Op → Bool) (dims : Nat → Nat) (t : T Op) (h : Shape t) (ha : Agree t) (hq : t.qsys ≠ none) (fs : List (Factor Op)) :
    construct pauli dims t = .ok fs ↔ List.Forall₂ (Is pauli dims) t.says fs := by
  unfold construct
  cases hqs : t.qsys with
  | none => exact absurd hqs hq
  | some q =>
    cases q with
    | one s =>
      rw [Shape, hqs] at h
      obtain ⟨⟨o, ho⟩, ⟨r, hr⟩, -⟩ := h
      have hs : t.says = [(s, o, r)] := by simp [T.says, T.systems, T.opers, T.orders, hqs, ho, hr, Vals.toList]
      simp only [ho, hr, hs]
      cases hd : dimInput pauli dims s o r with
      | error e =>
        simp only [Except.map, reduceCtorEq, List.forall₂_cons_left_iff, List.forall₂_nil_left_iff, false_iff]
        rintro ⟨f, u, hf, -, -⟩
        rw [← dimInput_iff, hd] at hf; cases hf
      | ok f =>
        simp only [Except.map, Except.ok.injEq, List.forall₂_cons_left_iff, List.forall₂_nil_left_iff]
        constructor
        · rintro rfl; exact ⟨f, [], (dimInput_iff _ _ _ _ _ _).mp hd, rfl, rfl⟩
        · rintro ⟨f', u, hf, rfl, rfl⟩
          rw [← dimInput_iff, hd] at hf; cases hf; rfl
    | many l =>
      rw [says_subs t h ha l hqs]
      exact subFactors_iff pauli dims t.subs fs

/-! ### Statements -/

/-- A single system has one operator and one order, a coupling has lists of them as long as its list of systems (or, before they are
assigned, `None` and 1). -/
theorem C91_shapes (pauli : Op → Bool) (b : Bool) (dims : Nat → Nat) (cs : List (Cmd Op)) :
    let t := (run pauli ⟨T.new Op b, dims⟩ cs).t
    (∀ s, t.qsys = some (.one s) → (∃ o, t.oper = .one o) ∧ ∃ r, t.order = .one r) ∧
    ∀ l, t.qsys = some (.many l) → (t.oper = .one none ∨ ∃ v, t.oper = .many v ∧ v.length = l.length) ∧
      (t.order = .one 1 ∨ ∃ r, t.order = .many r ∧ r.length = l.length) := by
  have h := shape_run pauli cs ⟨T.new Op b, dims⟩ (shape_new b)
  rw [Shape] at h
  refine ⟨fun s hq => ?_, fun l hq => ?_⟩
  · rw [hq] at h; exact ⟨h.1, h.2.1⟩
  · rw [hq] at h; exact h.2

/-- `operator = v` succeeds if and only if `v` is one operator for a single system or a list of as many operators as the coupling has systems,
and systems given a Pauli operator have dimension 2 (or none yet).  A list for a single system or one operator for a coupling raises
TypeError, everything else ValueError. -/
theorem C91_operator_iff (pauli : Op → Bool) (b : Bool) (dims : Nat → Nat) (cs : List (Cmd Op)) (v : Vals (Option Op)) :
    let st := run pauli ⟨T.new Op b, dims⟩ cs
    ((setOperator pauli st.dims st.t v).1 = .ok () ↔
      (∃ s o, st.t.qsys = some (.one s) ∧ v = .one o ∧ Allowed pauli st.dims s o) ∨
      ∃ l os, st.t.qsys = some (.many l) ∧ v = .many os ∧ List.Forall₂ (Allowed pauli st.dims) l os) ∧
    ((setOperator pauli st.dims st.t v).1 = .error .type ↔
      (∃ s os, st.t.qsys = some (.one s) ∧ v = .many os) ∨ ∃ l o, st.t.qsys = some (.many l) ∧ v = .one o) ∧
    (setOperator pauli st.dims st.t v).1 ≠ .error .index := by
  intro st
  have h := shape_run pauli cs ⟨T.new Op b, dims⟩ (shape_new b)
  change Shape st.t at h
  generalize st = st at h
  cases hq : st.t.qsys with
  | none =>
    rw [setOperator_bad pauli st.dims st.t v .value (by rw [hq]; rfl)]
    simp
  | some q =>
    cases q with
    | one s =>
      cases v with
      | many os =>
        rw [setOperator_bad pauli st.dims st.t _ .type (by rw [hq]; rfl)]
        simp
      | one o =>
        rw [setOperator_one pauli st.dims st.t h s hq]
        have := dimFits_iff pauli st.dims s o
        by_cases hf : dimFits pauli (st.dims s) o = true
        · rw [if_pos hf]; simp [this.mp hf]
        · rw [if_neg hf]
          have hn : ¬ Allowed pauli st.dims s o := fun h => hf (this.mpr h)
          simp [hn]
    | many l =>
      cases v with
      | one o =>
        rw [setOperator_bad pauli st.dims st.t _ .type (by rw [hq]; rfl)]
        simp
      | many os =>
        by_cases hl : os.length = l.length
        · obtain ⟨h1, h2⟩ := setOperator_many pauli st.dims st.t h l hq os hl
          by_cases hf : List.Forall₂ (Allowed pauli st.dims) l os
          · rw [h1 hf]; simp [hf]
          · rw [h2 hf]; simp [hf]
        · rw [setOperator_bad pauli st.dims st.t _ .value (by rw [hq]; simp only [checkMultiple, if_neg hl])]
          have hn : ¬ List.Forall₂ (Allowed pauli st.dims) l os := fun h => hl h.length_eq.symm
          simp [hn]

/-- After it succeeded, `operator` is `v` and the systems are the same; orders stay, and are all 1 for a coupling that had none.  In particular
the check for an ambiguous order never raises. -/
theorem C91_operator_stored (pauli : Op → Bool) (b : Bool) (dims : Nat → Nat) (cs : List (Cmd Op)) (v : Vals (Option Op)) :
    let st := run pauli ⟨T.new Op b, dims⟩ cs
    (setOperator pauli st.dims st.t v).1 = .ok () →
      (setOperator pauli st.dims st.t v).2.oper = v ∧ (setOperator pauli st.dims st.t v).2.qsys = st.t.qsys ∧
      (∀ l, st.t.qsys = some (.many l) → (setOperator pauli st.dims st.t v).2.order = .many (st.t.orders l.length)) ∧
      ∀ s, st.t.qsys = some (.one s) → (setOperator pauli st.dims st.t v).2.order = st.t.order := by
  intro st hok
  rcases (C91_operator_iff pauli b dims cs v).1.mp hok with ⟨s, o, hq, rfl, ha⟩ | ⟨l, os, hq, rfl, ha⟩
  all_goals
    have h := shape_run pauli cs ⟨T.new Op b, dims⟩ (shape_new b)
    change Shape st.t at h
    change st.t.qsys = _ at hq
  · rw [setOperator_one pauli st.dims st.t h s hq, if_pos ((dimFits_iff _ _ _ _).mpr ha)]
    exact ⟨rfl, rfl, fun l hl => (by rw [hq] at hl; cases hl), fun _ _ => rfl⟩
  · rw [(setOperator_many pauli st.dims st.t h l hq os ha.length_eq.symm).1 ha]
    refine ⟨rfl, rfl, fun l' hl => ?_, fun s hl => (by rw [hq] at hl; cases hl)⟩
    rw [hq] at hl; cases hl; rfl

/-- `order = v` (`None` is 1) succeeds if and only if `v` is one number for a single system or a list of as many numbers as the coupling has
systems; if it raises, the term is as before. -/
theorem C91_order (pauli : Op → Bool) (b : Bool) (dims : Nat → Nat) (cs : List (Cmd Op)) (v : Option (Vals Int)) :
    let t := (run pauli ⟨T.new Op b, dims⟩ cs).t
    ((setOrder t v).1 = .ok () ↔ (∃ s r, t.qsys = some (.one s) ∧ v.getD (.one 1) = .one r) ∨
      ∃ l rs, t.qsys = some (.many l) ∧ v.getD (.one 1) = .many rs ∧ rs.length = l.length) ∧
    ((setOrder t v).1 = .ok () → (setOrder t v).2.order = v.getD (.one 1) ∧ (setOrder t v).2.oper = t.oper ∧ (setOrder t v).2.qsys = t.qsys) ∧
    ((setOrder t v).1 ≠ .ok () → (setOrder t v).2 = t) := by
  intro t
  have h : Shape t := shape_run pauli cs ⟨T.new Op b, dims⟩ (shape_new b)
  generalize t = t at h
  rw [setOrder_eq t v h]
  generalize v.getD (.one 1) = w
  cases hq : t.qsys with
  | none => simp
  | some q =>
    cases q with
    | one s => cases w <;> simp [hq]
    | many l =>
      cases w with
      | one r => simp
      | many rs => by_cases hl : rs.length = l.length <;> simp [hl, hq]

/-- A failed `operator = v` leaves the term as it was, unless it failed because of a Pauli operator for a coupling.
Missing: the exception of that case, see `C91_failed_used`. -/
theorem C91_operator_raises_partial (pauli : Op → Bool) (b : Bool) (dims : Nat → Nat) (cs : List (Cmd Op)) (v : Vals (Option Op)) :
    let st := run pauli ⟨T.new Op b, dims⟩ cs
    (∀ l os, st.t.qsys = some (.many l) → v = .many os → os.length ≠ l.length) → (setOperator pauli st.dims st.t v).1 ≠ .ok () →
      (setOperator pauli st.dims st.t v).2 = st.t := by
  intro st hn hr
  have h : Shape st.t := shape_run pauli cs ⟨T.new Op b, dims⟩ (shape_new b)
  generalize st = st at h hn hr
  cases hc : checkMultiple st.t.qsys v with
  | error e => rw [setOperator_bad pauli st.dims st.t v e hc]
  | ok x =>
    cases hq : st.t.qsys with
    | none => rw [hq] at hc; cases hc
    | some q =>
      cases q with
      | one s =>
        cases v with
        | many os => rw [hq] at hc; cases hc
        | one o =>
          rw [setOperator_one pauli st.dims st.t h s hq] at hr ⊢
          by_cases hf : dimFits pauli (st.dims s) o = true
          · rw [if_pos hf] at hr; exact absurd rfl hr
          · rw [if_neg hf]
      | many l =>
        cases v with
        | one o => rw [hq] at hc; cases hc
        | many os =>
          rw [hq] at hc
          simp only [checkMultiple, if_neg (hn l os hq rfl)] at hc
          cases hc

/-- Without such a failure in its history, the matrix of a term is the product of the operators in `operator` to the powers in `order` of the
systems in `qSystem` with their present dimensions, in this order; it is made if and only if every system has a dimension (2 for Pauli
operators) and an operator.
Missing: histories with such a failure, see `C91_failed_used`. -/
theorem C91_matrix_partial (pauli : Op → Bool) (b : Bool) (dims : Nat → Nat) (cs : List (Cmd Op)) (hn : NoPauliFailure pauli ⟨T.new Op b, dims⟩ cs)
    (fs : List (Factor Op)) :
    let st := run pauli ⟨T.new Op b, dims⟩ cs
    st.t.qsys ≠ none → (construct pauli st.dims st.t = .ok fs ↔ List.Forall₂ (Is pauli st.dims) st.t.says fs) := by
  intro st hq
  have h : Shape st.t := shape_run pauli cs ⟨T.new Op b, dims⟩ (shape_new b)
  have ha : Agree st.t := agree_run pauli cs ⟨T.new Op b, dims⟩ (shape_new b) (fun l hl => (by cases hl)) hn
  exact construct_iff pauli st.dims st.t h ha hq fs

/-- If it is not made, the exception is the one of the first system, in the order of `qSystem`, that lacks something.
Missing as in `C91_matrix_partial`. -/
theorem C91_matrix_raises_partial (pauli : Op → Bool) (b : Bool) (dims : Nat → Nat) (cs : List (Cmd Op))
    (hn : NoPauliFailure pauli ⟨T.new Op b, dims⟩ cs) (e : Err) :
    let st := run pauli ⟨T.new Op b, dims⟩ cs
    st.t.qsys ≠ none → (construct pauli st.dims st.t = .error e ↔
      ∃ pre x post, st.t.says = pre ++ x :: post ∧ (∀ y ∈ pre, ∃ f, Is pauli st.dims y f) ∧ Fails pauli st.dims x e) := by
  intro st hq
  have h : Shape st.t := shape_run pauli cs ⟨T.new Op b, dims⟩ (shape_new b)
  have ha : Agree st.t := agree_run pauli cs ⟨T.new Op b, dims⟩ (shape_new b) (fun l hl => (by cases hl)) hn
  generalize st = st at h ha hq
  obtain ⟨t, dims⟩ := st
  dsimp only at h ha hq ⊢
  unfold construct
  cases hqs : t.qsys with
  | none => exact absurd hqs hq
  | some q =>
    cases q with
    | one s =>
      rw [Shape, hqs] at h
      obtain ⟨⟨o, ho⟩, ⟨r, hr⟩, -⟩ := h
      have hs : t.says = [(s, o, r)] := by simp [T.says, T.systems, T.opers, T.orders, hqs, ho, hr, Vals.toList]
      simp only [ho, hr, hs]
      have hm : (dimInput pauli dims s o r).map (fun f => [f]) = .error e ↔ dimInput pauli dims s o r = .error e := by
        cases dimInput pauli dims s o r <;> simp [Except.map]
      rw [hm, dimInput_error]
      constructor
      · exact fun h => ⟨[], _, [], rfl, fun y hy => (by cases hy), h⟩
      · rintro ⟨pre, x, post, h, -, h2⟩
        cases pre with
        | nil => cases h; exact h2
        | cons y pre => cases pre <;> cases h
    | many l =>
      rw [says_subs t h ha l hqs]
      exact subFactors_error pauli dims e t.subs

/-- The dimension of a system is the last one assigned; those of others stay. -/
theorem C91_dimension (pauli : Op → Bool) (st : St Op) (s d x : Nat) :
    (exec pauli st (.dimension s d)).2.t = st.t ∧ (exec pauli st (.dimension s d)).2.dims s = d ∧
    (x ≠ s → (exec pauli st (.dimension s d)).2.dims x = st.dims x) :=
  ⟨rfl, by simp [exec], fun h => by simp [exec, h]⟩

/-- The exception: operators refused for a coupling because of a Pauli operator are not in `operator`, but from then on the matrix is made of
them. -/
theorem C91_failed_used (pauli : Op → Bool) (b : Bool) (dims : Nat → Nat) (cs : List (Cmd Op)) (l : List Nat) (os : List (Option Op)) :
    let st := run pauli ⟨T.new Op b, dims⟩ cs
    st.t.qsys = some (.many l) → os.length = l.length → ¬ List.Forall₂ (Allowed pauli st.dims) l os →
      (setOperator pauli st.dims st.t (.many os)).1 = .error .value ∧ (setOperator pauli st.dims st.t (.many os)).2.oper = st.t.oper ∧
      ∀ (dims' : Nat → Nat) (fs : List (Factor Op)), construct pauli dims' (setOperator pauli st.dims st.t (.many os)).2 = .ok fs →
        fs.map Factor.sys = l ∧ fs.map (fun f => some f.oper) = os := by
  intro st hq hl hf
  have h : Shape st.t := shape_run pauli cs ⟨T.new Op b, dims⟩ (shape_new b)
  generalize st = st at h hq hf
  rw [(setOperator_many pauli st.dims st.t h l hq os hl).2 hf]
  refine ⟨rfl, rfl, fun dims' fs hc => ?_⟩
  have hls := h.length hq
  have hq' : (withOpers st.t os).qsys = some (.many l) := hq
  rw [construct, hq'] at hc
  dsimp only at hc
  rw [subFactors_iff] at hc
  have h1 : (withOpers st.t os).subs.map Sub.oper = os := zipWith_new _ Sub.oper (fun _ _ => rfl) _ _ (by omega)
  have h2 : (withOpers st.t os).subs.map Sub.sys = l := by
    rw [Shape, hq] at h
    exact (zipWith_sys Sub.withOper (fun _ _ => rfl) st.t.subs os (by omega)).trans h.1
  rw [← h1, ← h2]
  generalize (withOpers st.t os).subs = ss at hc
  clear h1 h2 hl hf hls hq hq' h
  induction ss generalizing fs with
  | nil => rw [List.map_nil, List.forall₂_nil_left_iff] at hc; subst hc; exact ⟨rfl, rfl⟩
  | cons s ss ih =>
    rw [List.map_cons, List.forall₂_cons_left_iff] at hc
    obtain ⟨f, fs', hf, hr, rfl⟩ := hc
    obtain ⟨i1, i2⟩ := ih fs' hr
    simp only [List.map_cons, i1, i2]
    have h3 : s.oper = some f.oper := hf.2.2.1
    exact ⟨by rw [hf.1], by rw [h3]⟩

/-- `createTerm`: if it succeeds, the term has the given systems and operators, and the given orders (all 1 without), and its matrix is made of
them. -/
theorem C91_create (pauli : Op → Bool) (dims : Nat → Nat) (q : Vals Nat) (v : Vals (Option Op)) (r : Option (Vals Int)) (t : T Op)
    (h : createTerm pauli dims q v r = .ok t) :
    t.qsys = some q ∧ t.oper = v ∧ t.orders q.toList.length = (match r with | none => List.replicate q.toList.length 1 | some w => w.toList) ∧
    ∀ dims' fs, construct pauli dims' t = .ok fs ↔ List.Forall₂ (Is pauli dims') t.says fs := by
  have hsub : ∀ (r' : Option (Vals Int)) (t1 t2 t3 : T Op), setQSystem (T.new Op true) q = (.ok (), t1) → setOperator pauli dims t1 v = (.ok (), t2) →
      setOrder t2 r' = (.ok (), t3) → t2.qsys = some q ∧ t3.qsys = some q ∧ t3.oper = v ∧ t3.order = r'.getD (.one 1) ∧
        ∀ dims' fs, construct pauli dims' t3 = .ok fs ↔ List.Forall₂ (Is pauli dims') t3.says fs := by
    intro r' t1 t2 t3 h1 h2 h3
    have e1 : (exec pauli ⟨T.new Op true, dims⟩ (.qSystem q)).2 = ⟨t1, dims⟩ := by
      show St.mk (setQSystem (T.new Op true) q).2 dims = _
      rw [h1]
    have e2 : (exec pauli ⟨t1, dims⟩ (.operator v)).2 = ⟨t2, dims⟩ := by
      show St.mk (setOperator pauli dims t1 v).2 dims = _
      rw [h2]
    have e3 : (exec pauli ⟨t2, dims⟩ (.order r')).2 = ⟨t3, dims⟩ := by
      show St.mk (setOrder t2 r').2 dims = _
      rw [h3]
    have hq : t1.qsys = some q := by
      cases q with
      | one s => cases h1; rfl
      | many l => simp only [setQSystem, T.new, if_true] at h1; cases h1; rfl
    have r1 : run pauli ⟨T.new Op true, dims⟩ [.qSystem q] = ⟨t1, dims⟩ := e1
    have r2 : run pauli ⟨T.new Op true, dims⟩ [.qSystem q, .operator v] = ⟨t2, dims⟩ := by
      show (exec pauli (exec pauli ⟨T.new Op true, dims⟩ (.qSystem q)).2 (.operator v)).2 = _
      rw [e1, e2]
    have hs2 := C91_operator_stored pauli true dims [.qSystem q] v
    dsimp only at hs2
    rw [r1] at hs2
    dsimp only at hs2
    rw [h2] at hs2
    obtain ⟨a1, a2, -⟩ := hs2 rfl
    dsimp only at a1 a2
    have hs3 := C91_order pauli true dims [.qSystem q, .operator v] r'
    dsimp only at hs3
    rw [r2] at hs3
    dsimp only at hs3
    rw [h3] at hs3
    obtain ⟨b1, b2, b3⟩ := hs3.2.1 rfl
    dsimp only at b1 b2 b3
    have hok := (C91_operator_iff pauli true dims [.qSystem q] v).1
    rw [r1] at hok
    dsimp only at hok
    rw [h2] at hok
    have hok := hok.mp rfl
    have hq3 := b3.trans (a2.trans hq)
    refine ⟨a2.trans hq, hq3, b2.trans a1, b1, fun dims' fs => ?_⟩
    have hn : NoPauliFailure pauli ⟨T.new Op true, dims⟩ [.qSystem q, .operator v, .order r'] := by
      refine ⟨fun l os hl => (by cases hl), ?_, fun l os _ hc => (by cases hc), trivial⟩
      intro l os hl hv hlen
      rw [e1] at hl ⊢
      dsimp only at hl ⊢
      cases hv
      rcases hok with ⟨s, o, -, hv, -⟩ | ⟨l', os', hl', hv, hf⟩
      · cases hv
      · rw [hl] at hl'; cases hl'; cases hv; exact hf
    have ha : Agree t3 := by
      have := agree_run pauli [.qSystem q, .operator v, .order r'] ⟨T.new Op true, dims⟩ (shape_new true) (fun l hl => (by cases hl)) hn
      have r3 : run pauli ⟨T.new Op true, dims⟩ [.qSystem q, .operator v, .order r'] = ⟨t3, dims⟩ := by
        show (exec pauli (exec pauli (exec pauli ⟨T.new Op true, dims⟩ (.qSystem q)).2 (.operator v)).2 (.order r')).2 = _
        rw [e1, e2, e3]
      rw [r3] at this
      exact this
    have hsh : Shape t3 := by
      have := shape_exec pauli ⟨t2, dims⟩ (r2 ▸ shape_run pauli [.qSystem q, .operator v] ⟨T.new Op true, dims⟩ (shape_new true)) (.order r')
      rw [e3] at this
      exact this
    exact construct_iff pauli dims' t3 hsh ha (by rw [hq3]; simp) fs
  unfold createTerm at h
  cases h1 : setQSystem (T.new Op true) q with
  | mk a1 t1 =>
    rw [h1] at h
    cases a1 with
    | error e => cases h
    | ok u1 =>
      cases h2 : setOperator pauli dims t1 v with
      | mk a2 t2 =>
        dsimp only at h
        rw [h2] at h
        cases a2 with
        | error e => cases h
        | ok u2 =>
          dsimp only at h
          generalize hr : givenOrder q r = r' at h
          cases h3 : setOrder t2 r' with
          | mk a3 t3 =>
            rw [h3] at h
            cases a3 with
            | error e => cases h
            | ok u3 =>
              cases h
              obtain ⟨k0, k1, k2, k3, k4⟩ := hsub r' t1 t2 t h1 h2 h3
              refine ⟨k1, k2, ?_, k4⟩
              rw [T.orders, k3]
              cases q with
              | one s =>
                cases r with
                | none => subst hr; rfl
                | some w =>
                  subst hr
                  cases w <;> rfl
              | many l =>
                cases r with
                | none => subst hr; simp [Vals.toList, givenOrder]
                | some w =>
                  subst hr
                  cases w with
                  | many rs => rfl
                  | one r =>
                    exfalso
                    have e : setOrder t2 (some (.one r)) = (.error .type, t2) := by
                      simp only [setOrder, k0, Option.getD_some, checkMultiple]
                    rw [show givenOrder (.many l) (some (.one r)) = some (.one r) from rfl, e] at h3
                    cases h3

/-! ### Examples -/

/-- Operators: 0 and 1 are Pauli operators. -/
abbrev isP : Nat → Bool := fun o => o < 2

/-- A coupling of a qubit and a cavity. -/
abbrev jc : List (Cmd Nat) := [.qSystem (.many [0, 1]), .operator (.many [some 0, some 7]), .order (some (.many [1, 2]))]

example : construct isP (fun s => if s = 0 then 2 else 5) (run isP ⟨T.new Nat true, fun s => if s = 0 then 2 else 5⟩ jc).t =
    .ok [⟨0, 2, 0, 1⟩, ⟨1, 5, 7, 2⟩] := by decide +kernel
/-- Operators refused for the cavity; after its dimension became 2 the refused ones are used, `operator` says otherwise. -/
example : let st := run isP ⟨T.new Nat true, fun s => if s = 0 then 2 else 5⟩ (jc ++ [.operator (.many [some 7, some 1]), .dimension 1 2])
    st.t.oper = .many [some 0, some 7] ∧ construct isP st.dims st.t = .ok [⟨0, 2, 7, 1⟩, ⟨1, 2, 1, 2⟩] := by decide +kernel
example : (setOperator isP (fun _ => 3) (run isP ⟨T.new Nat true, fun _ => 3⟩ [.qSystem (.one 4)]).t (.one (some 1))).1 = .error .value := by
  decide +kernel
example : (createTerm isP (fun _ => 4) (.many [0, 0]) (.many [some 5, some 6]) none).toOption.map T.order = some (.many [1, 1]) := by
  decide +kernel

end Verif.Term
