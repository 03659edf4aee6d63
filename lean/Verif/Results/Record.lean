import Verif.Results.Props
import Mathlib.Data.List.Forall2

/-!
# C98: everything that is recorded in one evolution

`singleResult`, `resAverage` and `resultsMethod` (`classes/QRes.py:124-176`), in any order and under any keys, on one `qResults` object
from the beginning of an evolution.
-/
namespace Verif.Results
open Verif.Sweep

variable {K : Type}

/-- An argument of `resultsMethod`: a string or something else. -/
inductive Arg (K : Type)
  | str (s : String)
  | val (v : PyVal K)

/-- The value which is stored; `emb` are the strings among the values. -/
def Arg.value (emb : String → PyVal K) : Arg K → PyVal K
  | .str s => emb s
  | .val v => v

/-- `resultsMethod(key, value, average)` (`QRes.py:156-165`): nothing is done for `average=True`, nor if no argument is a string. -/
def resultsMethod (emb : String → PyVal K) (key value : Arg K) (average : Bool) : List (Op K) :=
  if average then []
  else match key, value with
    | .str s, v => [.single s (v.value emb)]
    | k, .str s => [.single s (k.value emb)]
    | _, _ => []

/-- The values recorded one by one under a key, in order. -/
def singles (key : String) : List (Op K) → List (PyVal K)
  | [] => []
  | .single k v :: os => if k = key then v :: singles key os else singles key os
  | _ :: os => singles key os

theorem averaged_append (key : String) (l l' : List (Op K)) : averaged key (l ++ l') = averaged key l ++ averaged key l' := by
  induction l with
  | nil => rfl
  | cons o l ih =>
    cases o with
    | avg k x => by_cases h : k = key <;> simp [averaged, h, ih]
    | single k v => simp [averaged, ih]
    | state k v => simp [averaged, ih]
    | calcd k v => simp [averaged, ih]

theorem singles_append (key : String) (l l' : List (Op K)) : singles key (l ++ l') = singles key l ++ singles key l' := by
  induction l with
  | nil => rfl
  | cons o l ih =>
    cases o with
    | single k x => by_cases h : k = key <;> simp [singles, h, ih]
    | avg k v => simp [singles, ih]
    | state k v => simp [singles, ih]
    | calcd k v => simp [singles, ih]

theorem execOps_append [Field K] (l l' : List (Op K)) : ∀ r : Res K, execOps r (l ++ l') = (execOps r l).bind fun r => execOps r l' := by
  induction l with
  | nil => intro r; rfl
  | cons o l ih =>
    intro r
    simp only [List.cons_append, execOps]
    cases execOp r o with
    | none => rfl
    | some r1 => simp [ih]

/-- What a key shows: the mean if something was averaged, else the values, if there are any. -/
noncomputable def shown [Field K] (key : String) (ops : List (Op K)) : Option (PyVal K) :=
  open Classical in
  if averaged key ops ≠ [] then some (.atom ((averaged key ops).sum / (averaged key ops).length))
  else if singles key ops = [] then none else some (.list (singles key ops))

/-- Something is recorded one by one under a key after an average under the same key. -/
def Mixed (ops : List (Op K)) : Prop := ∃ l1 l2 key v, ops = l1 ++ .single key v :: l2 ∧ averaged key l1 ≠ []

/-- The state of a `qResults` object after the operations. -/
def RecInv [Field K] (ops : List (Op K)) (r : Res K) : Prop :=
  (∀ key, r.average.get? key = if (averaged key ops).length = 0 then none
    else some ((averaged key ops).sum / (averaged key ops).length, (averaged key ops).length)) ∧
  (∀ key, r.resultsLast.get? key = shown key ops) ∧ ∀ key a, r.statesLast.get? key ≠ some (.atom a)

theorem recInv_step [Field K] [CharZero K] (ops : List (Op K)) (o : Op K) (r : Res K) (h : RecInv ops r) :
    (execOp r o = none ↔ ∃ key v, o = .single key v ∧ averaged key ops ≠ []) ∧ ∀ r', execOp r o = some r' → RecInv (ops ++ [o]) r' := by
  obtain ⟨h1, h2, h3⟩ := h
  cases o with
  | single k v =>
    have ha : ∀ key, averaged key (ops ++ [.single k v]) = averaged key ops := fun key => by simp [averaged_append, averaged]
    have hs : ∀ key, singles key (ops ++ [.single k v]) = singles key ops ++ if k = key then [v] else [] := fun key => by
      by_cases hk : k = key <;> simp [singles_append, singles, hk]
    have hg := h2 k
    by_cases hav : averaged k ops = []
    · refine ⟨⟨fun hn => ?_, fun ⟨key, v', e, hne⟩ => ?_⟩, fun r' hr => ?_⟩
      · exfalso
        unfold shown at hg
        rw [if_neg (by simp [hav])] at hg
        by_cases hsk : singles k ops = []
        · rw [if_pos hsk] at hg
          simp [execOp, appendTo, hg] at hn
        · rw [if_neg hsk] at hg
          simp [execOp, appendTo, hg] at hn
      · injection e with e1 e2
        subst e1
        exact absurd hav hne
      · have hd : appendTo r.resultsLast k v = some (r.resultsLast.set k (.list (singles k ops ++ [v]))) := by
          unfold shown at hg
          rw [if_neg (by simp [hav])] at hg
          by_cases hsk : singles k ops = []
          · rw [if_pos hsk] at hg
            simp [appendTo, hg, hsk]
          · rw [if_neg hsk] at hg
            simp [appendTo, hg]
        simp only [execOp, hd, Option.map_some, Option.some.injEq] at hr
        subst hr
        refine ⟨fun key => by rw [ha]; exact h1 key, fun key => ?_, h3⟩
        by_cases hk : k = key
        · subst hk
          simp only [Dict.get?_set_self]
          unfold shown
          rw [ha, if_neg (by simp [hav]), hs, if_pos rfl, if_neg (by simp)]
        · simp only [Dict.get?_set_ne _ _ _ _ hk]
          rw [h2 key]
          unfold shown
          rw [ha, hs, if_neg hk, List.append_nil]
    · have hn : execOp r (.single k v) = none := by
        unfold shown at hg
        rw [if_pos hav] at hg
        simp [execOp, appendTo, hg]
      exact ⟨⟨fun _ => ⟨k, v, rfl, hav⟩, fun _ => hn⟩, fun r' hr => by rw [hn] at hr; cases hr⟩
  | state k v =>
    have ha : ∀ key, averaged key (ops ++ [.state k v]) = averaged key ops := fun key => by simp [averaged_append, averaged]
    have hs : ∀ key, singles key (ops ++ [.state k v]) = singles key ops := fun key => by simp [singles_append, singles]
    have hd : ∃ l, appendTo r.statesLast k v = some (r.statesLast.set k (.list l)) := by
      unfold appendTo
      cases hg : r.statesLast.get? k with
      | none => exact ⟨_, rfl⟩
      | some x => cases x with
        | atom a => exact absurd hg (h3 k a)
        | list l => exact ⟨_, rfl⟩
    obtain ⟨l, hd⟩ := hd
    refine ⟨⟨fun hn => ?_, fun ⟨key, v', e, _⟩ => (by cases e)⟩, fun r' hr => ?_⟩
    · simp [execOp, hd] at hn
    · simp only [execOp, hd, Option.map_some, Option.some.injEq] at hr
      subst hr
      refine ⟨fun key => by rw [ha]; exact h1 key, fun key => ?_, fun key a => ?_⟩
      · unfold shown
        rw [ha, hs]
        exact h2 key
      · by_cases hk : k = key
        · subst hk; simp
        · simp only [Dict.get?_set_ne _ _ _ _ hk]; exact h3 key a
  | calcd k v =>
    have ha : ∀ key, averaged key (ops ++ [.calcd k v]) = averaged key ops := fun key => by simp [averaged_append, averaged]
    have hs : ∀ key, singles key (ops ++ [.calcd k v]) = singles key ops := fun key => by simp [singles_append, singles]
    refine ⟨⟨fun hn => by simp [execOp] at hn, fun ⟨key, v', e, _⟩ => (by cases e)⟩, fun r' hr => ?_⟩
    simp only [execOp, Option.some.injEq] at hr
    subst hr
    refine ⟨fun key => by rw [ha]; exact h1 key, fun key => ?_, h3⟩
    unfold shown
    rw [ha, hs]
    exact h2 key
  | avg k x =>
    have ha : ∀ key, averaged key (ops ++ [.avg k x]) = averaged key ops ++ if k = key then [x] else [] := fun key => by
      by_cases hk : k = key <;> simp [averaged_append, averaged, hk]
    have hs : ∀ key, singles key (ops ++ [.avg k x]) = singles key ops := fun key => by simp [singles_append, singles]
    refine ⟨⟨fun hn => by simp [execOp] at hn, fun ⟨key, v', e, _⟩ => (by cases e)⟩, fun r' hr => ?_⟩
    simp only [execOp, Option.some.injEq] at hr
    have key1 : r'.average.get? k = some ((averaged k ops ++ [x]).sum / (averaged k ops ++ [x]).length, (averaged k ops ++ [x]).length) ∧
        r'.resultsLast.get? k = some (.atom ((averaged k ops ++ [x]).sum / (averaged k ops ++ [x]).length)) := by
      have hk := h1 k
      subst hr
      by_cases h0 : (averaged k ops).length = 0
      · rw [if_pos h0] at hk
        have h0' : averaged k ops = [] := List.length_eq_zero_iff.1 h0
        simp [resAverage, hk, h0']
      · rw [if_neg h0] at hk
        have hl : ((averaged k ops).length : K) ≠ 0 := Nat.cast_ne_zero.mpr h0
        have e : (((averaged k ops).length : K) * ((averaged k ops).sum / (averaged k ops).length) + x) / (((averaged k ops).length : K) + 1)
            = (averaged k ops ++ [x]).sum / ((averaged k ops ++ [x]).length : Nat) := by
          simp only [List.sum_append, List.sum_singleton, List.length_append, List.length_singleton, Nat.cast_add, Nat.cast_one]
          rw [mul_div_cancel₀ _ hl]
        rw [← e]
        simp [resAverage, hk]
    have key2 : ∀ key, k ≠ key → r'.average.get? key = r.average.get? key ∧ r'.resultsLast.get? key = r.resultsLast.get? key := by
      intro key hk
      subst hr
      unfold resAverage
      cases hg : r.average.get? k with
      | none => simp [Dict.get?_set_ne _ _ _ _ hk]
      | some q => simp [Dict.get?_set_ne _ _ _ _ hk, get?_del_ne _ _ _ hk]
    have key3 : r'.statesLast = r.statesLast := by
      subst hr
      unfold resAverage
      cases hg : r.average.get? k <;> simp
    refine ⟨fun key => ?_, fun key => ?_, fun key a => by rw [key3]; exact h3 key a⟩
    · by_cases hk : k = key
      · subst hk
        rw [ha, if_pos rfl, if_neg (by simp)]
        exact key1.1
      · rw [(key2 key hk).1, h1 key, ha, if_neg hk, List.append_nil]
    · by_cases hk : k = key
      · subst hk
        rw [key1.2]
        unfold shown
        rw [ha, if_pos rfl, if_pos (by simp)]
      · rw [(key2 key hk).2, h2 key]
        unfold shown
        rw [ha, hs, if_neg hk, List.append_nil]

theorem recInv_run [Field K] [CharZero K] (r : Res K) (h0 : RecInv [] r) (ops : List (Op K)) :
    (execOps r ops = none ↔ Mixed ops) ∧ ∀ r', execOps r ops = some r' → RecInv ops r' := by
  induction ops using List.reverseRecOn with
  | nil =>
    refine ⟨⟨fun h => (by simp [execOps] at h), fun ⟨l1, l2, key, v, e, _⟩ => by simp at e⟩, fun r' h => ?_⟩
    simp only [execOps, Option.some.injEq] at h
    subst h
    exact h0
  | append_singleton ops o ih =>
    have e1 : execOps r (ops ++ [o]) = (execOps r ops).bind fun r => execOp r o := by
      rw [execOps_append]
      cases execOps r ops with
      | none => rfl
      | some r1 =>
        simp only [Option.bind_some, execOps]
        cases execOp r1 o <;> rfl
    have mono : Mixed ops → Mixed (ops ++ [o]) := by
      rintro ⟨l1, l2, key, v, e, h⟩
      exact ⟨l1, l2 ++ [o], key, v, by simp [e], h⟩
    rw [e1]
    cases hr : execOps r ops with
    | none =>
      refine ⟨⟨fun _ => mono (ih.1.1 hr), fun _ => rfl⟩, fun r' h => by cases h⟩
    | some r1 =>
      obtain ⟨s1, s2⟩ := recInv_step ops o r1 (ih.2 r1 hr)
      refine ⟨?_, s2⟩
      show execOp r1 o = none ↔ _
      rw [s1]
      constructor
      · rintro ⟨key, v, rfl, h⟩
        exact ⟨ops, [], key, v, rfl, h⟩
      · rintro ⟨l1, l2, key, v, e, h⟩
        rcases List.eq_nil_or_concat l2 with rfl | ⟨l2', o', rfl⟩
        · have := List.append_inj' e rfl
          exact ⟨key, v, by simpa using this.2, by rw [this.1]; exact h⟩
        · exfalso
          have e' : ops ++ [o] = (l1 ++ .single key v :: l2') ++ [o'] := by rw [e]; simp
          have := (List.append_inj' e' rfl).1
          have hm : Mixed ops := ⟨l1, l2', key, v, this, h⟩
          rw [ih.1.2 hm] at hr
          cases hr

/-- The object at the beginning of every evolution (`_resetLast`). -/
def AtStart (r : Res K) : Prop := r.resultsLast = [] ∧ r.statesLast = [] ∧ r.average = []

theorem recInv_start [Field K] {r : Res K} (h : AtStart r) : RecInv [] r := by
  obtain ⟨h1, h2, h3⟩ := h
  refine ⟨fun key => by simp [h3, averaged, Dict.get?], fun key => ?_, fun key a => by simp [h2, Dict.get?]⟩
  simp [h1, shown, averaged, singles, Dict.get?]

/-- **C98** (partial: nothing is averaged under the key).  A key shows exactly the values recorded under it with `singleResult` and
`resultsMethod`, in order, whatever is recorded under other keys. -/
theorem C98_values_partial [Field K] [CharZero K] (r r' : Res K) (h : AtStart r) (ops : List (Op K)) (hr : execOps r ops = some r') (key : String)
    (ha : averaged key ops = []) :
    (singles key ops = [] → r'.resultsLast.get? key = none) ∧
    (singles key ops ≠ [] → r'.resultsLast.get? key = some (.list (singles key ops))) := by
  have := ((recInv_run r (recInv_start h) ops).2 r' hr).2.1 key
  unfold shown at this
  rw [if_neg (by simp [ha])] at this
  exact ⟨fun hs => by rw [this, if_pos hs], fun hs => by rw [this, if_neg hs]⟩

/-- **C98** fails: once something is averaged under a key, the key shows the mean only: values recorded one by one before are lost. -/
theorem C98_average_overwrites [Field K] [CharZero K] (r r' : Res K) (h : AtStart r) (ops : List (Op K)) (hr : execOps r ops = some r')
    (key : String) (ha : averaged key ops ≠ []) :
    r'.resultsLast.get? key = some (.atom ((averaged key ops).sum / (averaged key ops).length)) := by
  have := ((recInv_run r (recInv_start h) ops).2 r' hr).2.1 key
  unfold shown at this
  rw [if_pos ha] at this
  exact this

/-- **C98** (exceptions).  Recording raises exactly if a value is recorded one by one under a key after an average under the same key. -/
theorem C98_raises [Field K] [CharZero K] (r : Res K) (h : AtStart r) (ops : List (Op K)) : execOps r ops = none ↔
    ∃ l1 l2 key v, ops = l1 ++ .single key v :: l2 ∧ averaged key l1 ≠ [] :=
  (recInv_run r (recInv_start h) ops).1

/-- The objects are in this state at the beginning of every evolution. -/
theorem C98_start (st : Store K) (n : String) (r : Res K) (h : (resetLast st).get? n = some r) : AtStart r := by
  unfold resetLast at h
  induction st with
  | nil => simp [Dict.get?] at h
  | cons p st ih =>
    by_cases hp : p.1 = n
    · simp only [List.map_cons, Dict.get?, hp] at h
      simp at h
      subst h
      exact ⟨rfl, rfl, rfl⟩
    · simp only [List.map_cons, Dict.get?] at h
      simp [hp] at h
      exact ih h

/-- The statements of a compute function which record something: `qRes.singleResult = key, v` (`QRes.py:134-136`),
`qRes.resAverage = key, x` (`QRes.py:138-154`) and `qRes.resultsMethod(key, value, average)` (`QRes.py:156-165`). -/
inductive Call (K : Type)
  | single (key : String) (v : PyVal K)
  | avg (key : String) (x : K)
  | method (key value : Arg K) (average : Bool)

/-- The operations of a statement. -/
def Call.ops (emb : String → PyVal K) : Call K → List (Op K)
  | .single key v => [.single key v]
  | .avg key x => [.avg key x]
  | .method key value average => resultsMethod emb key value average

/-- The statements of one evolution, one after the other. -/
def runCalls [Field K] (emb : String → PyVal K) (r : Res K) (p : List (Call K)) : Option (Res K) := execOps r (p.flatMap (Call.ops emb))

/-- The statement records `v` under `key` one by one: by `singleResult`, or by `resultsMethod` without average, with the string as first
argument, or as second one if the first is no string. -/
inductive Records (emb : String → PyVal K) (key : String) : Call K → PyVal K → Prop
  | single (v) : Records emb key (.single key v) v
  | first (v) : Records emb key (.method (.str key) (.val v) false) v
  | second (v) : Records emb key (.method (.val v) (.str key) false) v
  | both (s) : Records emb key (.method (.str key) (.str s) false) (emb s)

theorem singles_call (emb : String → PyVal K) (key : String) (c : Call K) :
    (∃ v, Records emb key c v ∧ singles key (c.ops emb) = [v]) ∨ ((∀ v, ¬ Records emb key c v) ∧ singles key (c.ops emb) = []) := by
  cases c with
  | single k v =>
    by_cases hk : k = key
    · subst hk; exact Or.inl ⟨v, .single v, by simp [Call.ops, singles]⟩
    · exact Or.inr ⟨fun v h => by cases h; exact hk rfl, by simp [Call.ops, singles, hk]⟩
  | avg k x => exact Or.inr ⟨fun v h => (by cases h), rfl⟩
  | method a b av =>
    cases av with
    | true => exact Or.inr ⟨fun v h => (by cases h), rfl⟩
    | false =>
      cases a with
      | str k =>
        by_cases hk : k = key
        · subst hk
          cases b with
          | str s => exact Or.inl ⟨emb s, .both s, by simp [Call.ops, resultsMethod, singles, Arg.value]⟩
          | val v => exact Or.inl ⟨v, .first v, by simp [Call.ops, resultsMethod, singles, Arg.value]⟩
        · exact Or.inr ⟨fun v h => by cases h <;> exact hk rfl, by cases b <;> simp [Call.ops, resultsMethod, singles, hk]⟩
      | val v =>
        cases b with
        | str k =>
          by_cases hk : k = key
          · subst hk; exact Or.inl ⟨v, .second v, by simp [Call.ops, resultsMethod, singles, Arg.value]⟩
          · exact Or.inr ⟨fun v h => by cases h; exact hk rfl, by simp [Call.ops, resultsMethod, singles, hk]⟩
        | val w => exact Or.inr ⟨fun v h => (by cases h), rfl⟩

theorem averaged_call (emb : String → PyVal K) (key : String) (c : Call K) (h : ∀ x, c ≠ .avg key x) : averaged key (c.ops emb) = [] := by
  cases c with
  | single k v => rfl
  | avg k x => by_cases hk : k = key
               · subst hk; exact absurd rfl (h x)
               · simp [Call.ops, averaged, hk]
  | method a b av => cases av <;> cases a <;> cases b <;> simp [Call.ops, resultsMethod, averaged]

/-- **C98** (partial: statements of compute functions; nothing is averaged under the key).  `vs` are the values which the statements
recorded under the key, in order: the key shows exactly these, whatever is recorded under other keys. -/
theorem C98_calls_partial [Field K] [CharZero K] (emb : String → PyVal K) (r r' : Res K) (h : AtStart r) (p : List (Call K))
    (hr : runCalls emb r p = some r') (key : String) (ha : ∀ x, Call.avg key x ∉ p) :
    ∃ vs : List (Option (PyVal K)), List.Forall₂ (fun c o => ∀ v, Records emb key c v ↔ o = some v) p vs ∧
      r'.resultsLast.get? key = if vs.filterMap id = [] then none else some (.list (vs.filterMap id)) := by
  have hav : averaged key (p.flatMap (Call.ops emb)) = [] := by
    clear hr
    induction p with
    | nil => rfl
    | cons c p ih =>
      rw [List.flatMap_cons, averaged_append, ih (fun x hx => ha x (List.mem_cons_of_mem _ hx)),
        averaged_call emb key c (fun x e => ha x (by rw [e]; exact List.mem_cons_self))]
      rfl
  have hvs : ∃ vs : List (Option (PyVal K)), List.Forall₂ (fun c o => ∀ v, Records emb key c v ↔ o = some v) p vs ∧
      singles key (p.flatMap (Call.ops emb)) = vs.filterMap id := by
    clear hr hav ha
    induction p with
    | nil => exact ⟨[], .nil, rfl⟩
    | cons c p ih =>
      obtain ⟨vs, f, e⟩ := ih
      rcases singles_call emb key c with ⟨v, hv, hs⟩ | ⟨hv, hs⟩
      · refine ⟨some v :: vs, .cons (fun w => ⟨fun hw => ?_, fun hw => by injection hw with hw; exact hw ▸ hv⟩) f, ?_⟩
        · cases hw <;> cases hv <;> rfl
        · rw [List.flatMap_cons, singles_append, hs, e]; rfl
      · refine ⟨none :: vs, .cons (fun w => ⟨fun hw => absurd hw (hv w), fun hw => by cases hw⟩) f, ?_⟩
        rw [List.flatMap_cons, singles_append, hs, e]; rfl
  obtain ⟨vs, f, e⟩ := hvs
  obtain ⟨c1, c2⟩ := C98_values_partial r r' h _ hr key hav
  refine ⟨vs, f, ?_⟩
  rw [e] at c1 c2
  by_cases hn : vs.filterMap id = []
  · rw [if_pos hn]; exact c1 hn
  · rw [if_neg hn]; exact c2 hn

/-- **C98** fails: a call of `resultsMethod` with `average=True`, or without a string, can be left out of any program: the value is lost
and nothing is raised. -/
theorem C98_method_lost [Field K] (emb : String → PyVal K) (r : Res K) (p q : List (Call K)) (a b : Arg K) (v w : PyVal K) :
    runCalls emb r (p ++ .method a b true :: q) = runCalls emb r (p ++ q) ∧
    runCalls emb r (p ++ .method (.val v) (.val w) false :: q) = runCalls emb r (p ++ q) := by
  constructor <;> simp [runCalls, Call.ops, resultsMethod]

/-- Two values by different statements and one that is lost. -/
example : ((runCalls (fun _ => .atom 9) ({} : Res ℚ) [.single "a" (.atom 1), .method (.val (.atom 2)) (.str "a") false,
    .method (.str "a") (.val (.atom 3)) true, .method (.str "a") (.str "b") false]).map fun r => (r.resultsLast.get? "a", r.resultsLast.get? "b"))
    = some (some (.list [.atom 1, .atom 2, .atom 9]), none) := rfl

/-- Two values and two averages under different keys; an average after a value; a value after an average. -/
example : ((execOps ({} : Res ℚ) [.single "a" (.atom 1), .avg "b" 2, .single "a" (.atom 3), .avg "b" 4]).map fun r =>
      (r.resultsLast.get? "a", r.resultsLast.get? "b")) = some (some (.list [.atom 1, .atom 3]), some (.atom ((1 * 2 + 4) / (1 + 1)))) ∧
    ((execOps ({} : Res ℚ) [.single "a" (.atom 1), .avg "a" 2]).map fun r => r.resultsLast.get? "a") = some (some (.atom 2)) ∧
    ((execOps ({} : Res ℚ) [.avg "a" 2, .single "a" (.atom 1)]).map fun r => r.resultsLast.get? "a") = none := by
  refine ⟨?_, rfl, rfl⟩
  simp [execOps, execOp, appendTo, resAverage, Dict.get?, Dict.set, Dict.del]

end Verif.Results
