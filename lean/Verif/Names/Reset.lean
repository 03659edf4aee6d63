import Verif.Names.Lookup

/-!
# What `_resetAll` leaves behind (C101)

The docstring of `_resetAll` wants it to be like restarting the script.  Objects that are still held by the user stay alive, keep
the registry of the time of their creation, and the dictionary of all result objects is not emptied.
-/
namespace Verif.Names

/-- The state of a session with resets.  `gen o` is the number of resets before object `o` was created; it stands for the
registry that the object keeps in `_allInstaces` (`base.py:378-380`).  `old` are the registries before the resets, `cur` is
`named._allInstacesDict`, `results` is `qResults._allResults` (`QRes.py:209`). -/
structure RWorld where
  objs : List AliasObj
  gen : List Nat
  counters : Counters
  old : List (ADict Nat)
  cur : ADict Nat
  results : ADict Nat

/-- A statement of the user. -/
inductive RCmd
  | create (c : Nat) (internal : Bool)
  | giveAlias (o : Nat) (s : String)
  | reset
  deriving DecidableEq, Repr

/-- `named.__init__` (`base.py:367-380`) and, for the class `R` of the result objects, `qResults.__init__` (`QRes.py:213-219`). -/
def createR (T : List Cls) (R : Nat) (w : RWorld) (c : Nat) (internal : Bool) : RWorld :=
  let k := increment T w.counters c internal
  let objs := w.objs ++ [⟨some (namer T k c internal), []⟩]
  let o := w.objs.length
  { w with
    counters := k
    objs := objs
    gen := w.gen ++ [w.old.length]
    cur := aset (envOf objs) w.cur (.ali o) o
    results := if c = R then aset (envOf objs) w.results (.ali o) o else w.results }

/-- The check of the setter of `named.alias` (`base.py:442-446`): it goes through the current registry. -/
def aliasOk (w : RWorld) (o : Nat) (s : String) : Bool :=
  !(w.cur.any fun e => keyEq (envOf w.objs) e.1 (.str s) && e.2 != o)

/-- `_resetAll` (`base.py:482-489`). -/
def resetR (w : RWorld) : RWorld := { w with counters := resetCounters, old := w.old ++ [w.cur], cur := [] }

/-- Execute a statement; a refused alias changes nothing. -/
def stepR (T : List Cls) (R : Nat) (w : RWorld) : RCmd → RWorld
  | .create c i => createR T R w c i
  | .giveAlias o s => if aliasOk w o s then { w with objs := w.objs.modify o (AliasObj.addAlias · s) } else w
  | .reset => resetR w

/-- The start of the session. -/
def emptyR (T : List Cls) : RWorld := ⟨[], [], initCounters T, [], [], []⟩

/-- Execute statements in a state. -/
def runFrom (T : List Cls) (R : Nat) (w : RWorld) (cmds : List RCmd) : RWorld :=
  cmds.foldl (fun (w : RWorld) (cmd : RCmd) => stepR T R w cmd) w

/-- Execute a program. -/
def runR (T : List Cls) (R : Nat) (cmds : List RCmd) : RWorld := runFrom T R (emptyR T) cmds

/-- The registry of the `g`-th part of the session. -/
def regAt (w : RWorld) (g : Nat) : ADict Nat := (w.old[g]?).getD w.cur

/-- `o.getByNameOrAlias(k)` (`base.py:388-398`): looked up in the registry that `o` keeps; `none`: `ValueError`. -/
def lookupVia (w : RWorld) (o : Nat) (k : Key) : Option Nat :=
  aget (envOf w.objs) (regAt w ((w.gen[o]?).getD 0)) k

/-- `o.allResults[k]`. -/
def resultOf (w : RWorld) (k : Key) : Option Nat := aget (envOf w.objs) w.results k

/-- What a session that starts after the reset would have executed: objects `< N` do not exist in it. -/
def restarted (N : Nat) : List RCmd → List Op
  | [] => []
  | .create c i :: rest => .create c i :: restarted N rest
  | .giveAlias o s :: rest => if N ≤ o then .giveAlias (o - N) s :: restarted N rest else restarted N rest
  | .reset :: rest => restarted N rest

/-! ## Dictionaries under a renumbering of the objects -/

/-- The key of the same object when `N` objects are in front. -/
def shiftK (N : Nat) : Key → Key
  | .str s => .str s
  | .ali o => .ali (o + N)

/-- The same dictionary when `N` objects are in front. -/
def shiftD (N : Nat) (d : ADict Nat) : ADict Nat := d.map fun e => (shiftK N e.1, e.2 + N)

section
variable {N : Nat} {σ τ : Env} (hσ : ∀ o, τ (o + N) = σ o)
include hσ

theorem keyEq_shift (a b : Key) : keyEq τ (shiftK N a) (shiftK N b) = keyEq σ a b := by
  cases a <;> cases b <;> simp [keyEq, shiftK, hσ]

theorem hashOf_shift (a : Key) : hashOf τ (shiftK N a) = hashOf σ a := by
  cases a <;> simp [hashOf, shiftK, hσ]

theorem rawHas_shift (d : ADict Nat) (k : Key) : rawHas τ (shiftD N d) (shiftK N k) = rawHas σ d k := by
  simp only [rawHas, shiftD, List.any_map, Function.comp_def, hashOf_shift hσ]

theorem keySearch_shift (d : ADict Nat) (k : Key) :
    keySearch τ (shiftD N d) (shiftK N k) = shiftK N (keySearch σ d k) := by
  unfold keySearch
  rw [rawHas_shift hσ]
  split
  · rfl
  · simp only [shiftD, List.find?_map, Function.comp_def, keyEq_shift hσ]
    cases d.find? fun e => keyEq σ k e.1 <;> rfl

theorem rawGet_shift (d : ADict Nat) (k : Key) : rawGet τ (shiftD N d) (shiftK N k) = (rawGet σ d k).map (· + N) := by
  simp only [rawGet, shiftD, List.find?_map, Function.comp_def, hashOf_shift hσ]
  cases d.find? fun e => hashOf σ e.1 == hashOf σ k <;> rfl

theorem aget_shift (d : ADict Nat) (k : Key) : aget τ (shiftD N d) (shiftK N k) = (aget σ d k).map (· + N) := by
  rw [aget, keySearch_shift hσ, rawGet_shift hσ, aget]

theorem rawSet_shift (d : ADict Nat) (k : Key) (v : Nat) :
    rawSet τ (shiftD N d) (shiftK N k) (v + N) = shiftD N (rawSet σ d k v) := by
  induction d with
  | nil => rfl
  | cons e d ih =>
    have hc : shiftD N (e :: d) = (shiftK N e.1, e.2 + N) :: shiftD N d := rfl
    rw [hc]
    simp only [rawSet, hashOf_shift hσ]
    by_cases h : hashOf σ e.1 == hashOf σ k
    · simp [h, shiftD]
    · rw [if_neg h, if_neg h, ih]; rfl

theorem aset_shift (d : ADict Nat) (k : Key) (v : Nat) :
    aset τ (shiftD N d) (shiftK N k) (v + N) = shiftD N (aset σ d k v) := by
  rw [aset, keySearch_shift hσ, rawSet_shift hσ, aset]

end

/-! ## The session after a reset is a fresh session -/

variable {T : List Cls} {R : Nat}

/-- Every class has its own counters or no value is stored in a base class. -/
theorem counter_getD (hT : ∀ c ∈ T, c.own = true) {f : Nat → Option Nat} (hf : ∀ c < T.length, (f c).isSome) (c : Nat) :
    counter T f c = (f c).getD 0 := by
  unfold counter
  rw [lookupAttr]
  cases h : f c with
  | some n => rfl
  | none =>
    have : ¬ c < T.length := fun hc => by have := hf c hc; simp [h] at this
    rw [List.getElem?_eq_none (by omega)]
    rfl

/-- Two states of the counters give the same names. -/
structure SameCount (T : List Cls) (k k' : Counters) : Prop where
  own : Owned T k
  own' : Owned T k'
  ext : ∀ c, (k.ext c).getD 0 = (k'.ext c).getD 0
  int : ∀ c, (k.int c).getD 0 = (k'.int c).getD 0

theorem sameCount_increment (hT : ∀ c ∈ T, c.own = true) {k k' : Counters} (h : SameCount T k k') (c : Nat) (i : Bool) :
    SameCount T (increment T k c i) (increment T k' c i) := by
  have e1 := counter_getD hT fun c hc => (h.own c hc).1
  have e2 := counter_getD hT fun c hc => (h.own c hc).2
  have e1' := counter_getD hT fun c hc => (h.own' c hc).1
  have e2' := counter_getD hT fun c hc => (h.own' c hc).2
  refine ⟨increment_owned k h.own c i, increment_owned k' h.own' c i, fun x => ?_, fun x => ?_⟩
  · cases i
    · simp only [increment, Bool.false_eq_true, if_false]
      by_cases hx : x = c
      · simp only [hx, if_true]; rw [e1, e1', h.ext]
      · simp only [hx, if_false]; exact h.ext x
    · exact h.ext x
  · cases i
    · exact h.int x
    · simp only [increment, if_true]
      by_cases hx : x = c
      · simp only [hx, if_true]; rw [e2, e2', h.int]
      · simp only [hx, if_false]; exact h.int x

theorem sameCount_namer (hT : ∀ c ∈ T, c.own = true) {k k' : Counters} (h : SameCount T k k') (c : Nat) (i : Bool) :
    namer T k c i = namer T k' c i := by
  unfold namer
  rw [counter_getD hT (fun c hc => (h.own c hc).1), counter_getD hT (fun c hc => (h.own c hc).2),
    counter_getD hT (fun c hc => (h.own' c hc).1), counter_getD hT (fun c hc => (h.own' c hc).2), h.ext, h.int]

theorem sameCount_reset (hT : ∀ c ∈ T, c.own = true) : SameCount T resetCounters (initCounters T) := by
  have hi : ∀ c < T.length, (if (T[c]?).any Cls.own then some 0 else none : Option Nat) = some 0 := by
    intro c hc
    rw [List.getElem?_eq_getElem hc]
    simp [hT _ (List.getElem_mem hc)]
  refine ⟨owned_reset, fun c hc => ?_, fun c => ?_, fun c => ?_⟩
  · simp only [initCounters]; rw [hi c hc]; simp
  · simp only [initCounters, resetCounters]; split <;> rfl
  · simp only [initCounters, resetCounters]; split <;> rfl

/-- The part of the session after a reset (with `N` objects before it) beside a fresh session. -/
structure Beside (T : List Cls) (N g : Nat) (w : RWorld) (v : World) : Prop where
  len : N ≤ w.objs.length
  objs : w.objs.drop N = v.objs
  cur : w.cur = shiftD N v.registry
  count : SameCount T w.counters v.counters
  gens : w.gen.length = w.objs.length
  gen : ∀ o, N ≤ o → o < w.objs.length → w.gen[o]? = some g
  old : w.old.length = g

theorem env_drop (l : List AliasObj) (N o : Nat) : envOf l (o + N) = envOf (l.drop N) o := by
  simp [envOf, List.getElem?_drop, Nat.add_comm]

theorem drop_modify {l : List AliasObj} {N o : Nat} (f : AliasObj → AliasObj) :
    (l.modify o f).drop N = if N ≤ o then (l.drop N).modify (o - N) f else l.drop N := by
  apply List.ext_getElem?
  intro i
  by_cases h : N ≤ o
  · simp only [h, if_true, List.getElem?_drop, List.getElem?_modify]
    by_cases h2 : o = N + i
    · have : o - N = i := by omega
      simp [h2]
    · have : ¬ (o - N = i) := by omega
      simp [h2, this]
  · have : ¬ (o = N + i) := by omega
    simp [h, List.getElem?_drop, List.getElem?_modify, this]

theorem aliasOk_beside {N g : Nat} {w : RWorld} {v : World} (h : Beside T N g w v) {o : Nat} (ho : N ≤ o) (s : String) :
    aliasOk w o s = (setAlias v (o - N) s).isSome := by
  have hσ : ∀ o, envOf w.objs (o + N) = envOf v.objs o := fun o => by rw [env_drop, h.objs]
  have hk : ∀ a, keyEq (envOf w.objs) (shiftK N a) (.str s) = keyEq (envOf v.objs) a (.str s) :=
    fun a => keyEq_shift hσ a (.str s)
  have hv : ∀ x : Nat, (x + N != o) = (x != o - N) := by
    intro x
    rw [Bool.eq_iff_iff]
    simp only [bne_iff_ne, ne_eq]
    constructor
    · intro h1 h2; apply h1; omega
    · intro h1 h2; apply h1; omega
  unfold aliasOk setAlias
  rw [h.cur]
  simp only [shiftD, List.any_map, Function.comp_def, hk, hv]
  cases v.registry.any fun e => keyEq (envOf v.objs) e.1 (.str s) && e.2 != (o - N) <;> rfl

theorem setAlias_objs {v : World} {o : Nat} {s : String} :
    ((setAlias v o s).getD v).objs = (if (setAlias v o s).isSome then v.objs.modify o (AliasObj.addAlias · s) else v.objs) ∧
    ((setAlias v o s).getD v).registry = v.registry ∧ ((setAlias v o s).getD v).counters = v.counters := by
  unfold setAlias
  split <;> simp

theorem modify_beyond {l : List AliasObj} {o : Nat} (f : AliasObj → AliasObj) (h : l.length ≤ o) : l.modify o f = l :=
  List.modify_eq_self h

/-- One statement. -/
theorem beside_step (hT : ∀ c ∈ T, c.own = true) {N g : Nat} {w : RWorld} {v : World} (h : Beside T N g w v) (cmd : RCmd)
    (hc : cmd ≠ .reset) :
    Beside T N g (stepR T R w cmd) ((restarted N [cmd]).foldl (fun (v : World) (op : Op) => stepW T v op) v) := by
  cases cmd with
  | reset => exact absurd rfl hc
  | create c i =>
    have hn : namer T (increment T w.counters c i) c i = namer T (increment T v.counters c i) c i :=
      sameCount_namer hT (sameCount_increment hT h.count c i) c i
    have hl : v.objs.length + N = w.objs.length := by rw [← h.objs, List.length_drop]; have := h.len; omega
    have ho : (w.objs ++ [(⟨some (namer T (increment T w.counters c i) c i), []⟩ : AliasObj)]).drop N =
        v.objs ++ [(⟨some (namer T (increment T v.counters c i) c i), []⟩ : AliasObj)] := by
      rw [List.drop_append_of_le_length h.len, h.objs, hn]
    refine ⟨?_, ho, ?_, sameCount_increment hT h.count c i, ?_, ?_, h.old⟩
    · simp only [stepR, createR, List.length_append]; have := h.len; omega
    · simp only [stepR, createR, restarted, List.foldl_cons, List.foldl_nil, stepW, create]
      rw [h.cur, ← hl]
      exact aset_shift (fun o => by rw [env_drop, ho]) v.registry (.ali v.objs.length) v.objs.length
    · simp only [stepR, createR, List.length_append, h.gens]; rfl
    · intro o h1 h2
      simp only [stepR, createR, List.length_append, List.length_cons, List.length_nil] at h2 ⊢
      by_cases h3 : o < w.objs.length
      · rw [List.getElem?_append_left (by rw [h.gens]; exact h3)]; exact h.gen o h1 h3
      · have : o = w.gen.length := by rw [h.gens]; omega
        rw [this, List.getElem?_concat_length, h.old]
  | giveAlias o s =>
    by_cases hN : N ≤ o
    · have e := aliasOk_beside h hN s
      have hv : (restarted N [.giveAlias o s]).foldl (fun (v : World) (op : Op) => stepW T v op) v =
          if o - N < v.objs.length then (setAlias v (o - N) s).getD v else v := by
        simp only [restarted, hN, if_true]; rfl
      have hs := setAlias_objs (v := v) (o := o - N) (s := s)
      have hl : v.objs.length + N = w.objs.length := by rw [← h.objs, List.length_drop]; have := h.len; omega
      rw [hv]
      simp only [stepR, e]
      by_cases hb : o - N < v.objs.length
      · rw [if_pos hb]
        cases hok : (setAlias v (o - N) s).isSome with
        | false =>
          rw [hok] at hs
          simp only [Bool.false_eq_true, if_false] at hs ⊢
          exact ⟨h.len, by rw [hs.1]; exact h.objs, by rw [hs.2.1]; exact h.cur, by rw [hs.2.2]; exact h.count, h.gens, h.gen, h.old⟩
        | true =>
          rw [hok] at hs
          simp only [if_true] at hs ⊢
          refine ⟨by simpa using h.len, ?_, by rw [hs.2.1]; exact h.cur, by rw [hs.2.2]; exact h.count, by simpa using h.gens,
            by simpa using h.gen, h.old⟩
          rw [drop_modify, if_pos hN, hs.1, h.objs]
      · rw [if_neg hb, modify_beyond _ (by omega)]
        simp only [ite_self]
        exact h
    · have hv : (restarted N [.giveAlias o s]).foldl (fun (v : World) (op : Op) => stepW T v op) v = v := by
        simp only [restarted, hN, if_false]; rfl
      rw [hv]
      simp only [stepR]
      split
      · exact ⟨by simpa using h.len, by rw [drop_modify, if_neg hN]; exact h.objs, h.cur, h.count, by simpa using h.gens,
          by simpa using h.gen, h.old⟩
      · exact h

theorem restarted_cons (N : Nat) (cmd : RCmd) (rest : List RCmd) :
    restarted N (cmd :: rest) = restarted N [cmd] ++ restarted N rest := by
  cases cmd with
  | create c i => rfl
  | giveAlias o s => simp only [restarted]; split <;> rfl
  | reset => rfl

theorem beside_run (hT : ∀ c ∈ T, c.own = true) {N g : Nat} (cmds : List RCmd) (hc : RCmd.reset ∉ cmds) :
    ∀ (w : RWorld) (v : World), Beside T N g w v →
      Beside T N g (runFrom T R w cmds) ((restarted N cmds).foldl (fun (v : World) (op : Op) => stepW T v op) v) := by
  induction cmds with
  | nil => intro w v h; exact h
  | cons cmd rest ih =>
    intro w v h
    rw [restarted_cons, List.foldl_append]
    exact ih (fun hm => hc (by simp [hm])) _ _ (beside_step hT h cmd fun he => hc (by simp [he]))

theorem runFrom_append (w : RWorld) (a b : List RCmd) : runFrom T R w (a ++ b) = runFrom T R (runFrom T R w a) b := by
  simp [runFrom, List.foldl_append]

/-- What holds in every state: the registries contain objects of their own part of the session only. -/
structure Parts (w : RWorld) : Prop where
  gens : w.gen.length = w.objs.length
  le : ∀ o g : Nat, w.gen[o]? = some g → g ≤ w.old.length
  reg : ∀ g ≤ w.old.length, ∀ e ∈ regAt w g, ∃ a : Nat, e.1 = .ali a ∧ w.gen[a]? = some g ∧ w.gen[e.2]? = some g

theorem mem_rawSet {σ : Env} {d : ADict Nat} {k : Key} {v : Nat} {e : Key × Nat} (h : e ∈ rawSet σ d k v) :
    e ∈ d ∨ (e.2 = v ∧ (e.1 = k ∨ ∃ e' ∈ d, e'.1 = e.1)) := by
  induction d with
  | nil => simp [rawSet] at h; subst h; right; simp
  | cons x d ih =>
    unfold rawSet at h
    by_cases hx : hashOf σ x.1 == hashOf σ k
    · rw [if_pos hx] at h
      rcases List.mem_cons.mp h with rfl | h
      · right; exact ⟨rfl, Or.inr ⟨x, by simp, rfl⟩⟩
      · left; simp [h]
    · rw [if_neg hx] at h
      rcases List.mem_cons.mp h with rfl | h
      · left; simp
      · rcases ih h with h | ⟨h1, h2 | ⟨e', h2, h3⟩⟩
        · left; simp [h]
        · exact Or.inr ⟨h1, Or.inl h2⟩
        · exact Or.inr ⟨h1, Or.inr ⟨e', by simp [h2], h3⟩⟩

theorem keySearch_mem {σ : Env} {d : ADict Nat} {k : Key} : keySearch σ d k = k ∨ ∃ e ∈ d, e.1 = keySearch σ d k := by
  unfold keySearch
  split
  · exact Or.inl rfl
  · cases h : d.find? fun e => keyEq σ k e.1 with
    | none => exact Or.inl rfl
    | some e => exact Or.inr ⟨e, List.mem_of_find?_eq_some h, rfl⟩

theorem mem_aset {σ : Env} {d : ADict Nat} {k : Key} {v : Nat} {e : Key × Nat} (h : e ∈ aset σ d k v) :
    e ∈ d ∨ (e.2 = v ∧ (e.1 = k ∨ ∃ e' ∈ d, e'.1 = e.1)) := by
  rcases mem_rawSet h with h | ⟨h1, h2 | h2⟩
  · exact Or.inl h
  · rcases keySearch_mem (σ := σ) (d := d) (k := k) with h3 | ⟨e', h3, h4⟩
    · exact Or.inr ⟨h1, Or.inl (h2.trans h3)⟩
    · exact Or.inr ⟨h1, Or.inr ⟨e', h3, by rw [h4, h2]⟩⟩
  · exact Or.inr ⟨h1, Or.inr h2⟩

theorem parts_step {w : RWorld} (h : Parts w) (cmd : RCmd) : Parts (stepR T R w cmd) := by
  cases cmd with
  | giveAlias o s =>
    simp only [stepR]
    split
    · exact ⟨by simpa using h.gens, h.le, h.reg⟩
    · exact h
  | reset =>
    refine ⟨h.gens, fun o g hg => ?_, fun g hg e he => ?_⟩
    · have := h.le o g hg
      simp only [stepR, resetR, List.length_append]; omega
    · simp only [stepR, resetR, List.length_append, List.length_cons, List.length_nil] at hg
      simp only [stepR, resetR, regAt] at he ⊢
      by_cases h1 : g < w.old.length
      · rw [List.getElem?_append_left h1, List.getElem?_eq_getElem h1] at he
        exact h.reg g (by omega) e (by rw [regAt, List.getElem?_eq_getElem h1]; exact he)
      · by_cases h2 : g = w.old.length
        · subst h2
          rw [List.getElem?_concat_length] at he
          exact h.reg w.old.length (Nat.le_refl _) e (by rw [regAt, List.getElem?_eq_none (Nat.le_refl _)]; exact he)
        · rw [List.getElem?_eq_none (by simp; omega)] at he
          simp at he
  | create c i =>
    have hg : ∀ o g : Nat, w.gen[o]? = some g → (w.gen ++ [w.old.length])[o]? = some g := by
      intro o g ho
      rw [List.getElem?_append_left (by by_contra hn; rw [List.getElem?_eq_none (by omega)] at ho; cases ho)]
      exact ho
    refine ⟨by simp [stepR, createR, h.gens], fun o g ho => ?_, fun g hle e he => ?_⟩
    · simp only [stepR, createR] at ho ⊢
      by_cases h1 : o < w.gen.length
      · rw [List.getElem?_append_left h1] at ho; exact h.le o g ho
      · rw [List.getElem?_append_right (by omega)] at ho
        have := List.mem_of_getElem? ho
        simp at this; omega
    · simp only [stepR, createR, regAt] at hle he ⊢
      by_cases h1 : g < w.old.length
      · rw [List.getElem?_eq_getElem h1] at he
        obtain ⟨a, ha, h2, h3⟩ := h.reg g hle e (by rw [regAt, List.getElem?_eq_getElem h1]; exact he)
        exact ⟨a, ha, hg _ _ h2, hg _ _ h3⟩
      · have hgl : g = w.old.length := by omega
        subst hgl
        rw [List.getElem?_eq_none (Nat.le_refl _)] at he
        have hnew : (w.gen ++ [w.old.length])[w.objs.length]? = some w.old.length := by
          rw [← h.gens, List.getElem?_concat_length]
        have hreg : ∀ e ∈ w.cur, ∃ a : Nat, e.1 = .ali a ∧ w.gen[a]? = some w.old.length ∧ w.gen[e.2]? = some w.old.length :=
          fun e he => h.reg w.old.length (Nat.le_refl _) e (by rw [regAt, List.getElem?_eq_none (Nat.le_refl _)]; exact he)
        rcases mem_aset he with he | ⟨h2, h3 | ⟨e', h3, h4⟩⟩
        · obtain ⟨a, ha, h2, h3⟩ := hreg e he
          exact ⟨a, ha, hg _ _ h2, hg _ _ h3⟩
        · exact ⟨w.objs.length, h3, hnew, by rw [h2]; exact hnew⟩
        · obtain ⟨a, ha, h5, _⟩ := hreg e' h3
          exact ⟨a, by rw [← h4, ha], hg _ _ h5, by rw [h2]; exact hnew⟩

theorem parts_run (cmds : List RCmd) : ∀ w : RWorld, Parts w → Parts (runFrom T R w cmds) := by
  induction cmds with
  | nil => intro w h; exact h
  | cons cmd rest ih => intro w h; exact ih _ (parts_step h cmd)

theorem parts_empty : Parts (emptyR T) := by
  refine ⟨rfl, fun o g h => by simp [emptyR] at h, fun g hg e he => ?_⟩
  simp [emptyR, regAt] at he

theorem parts (cmds : List RCmd) : Parts (runR T R cmds) := parts_run cmds _ parts_empty

/-- **C101** (partial: see the negations below for what a reset leaves behind) after any history, a reset and any further
statements, also about objects from before, the new objects have the names and aliases, find the objects, and are refused the
aliases of a session that only executes the statements about the new objects. -/
theorem C101_restart_partial (hT : ∀ c ∈ T, c.own = true) (before after : List RCmd) (hr : RCmd.reset ∉ after) :
    let N := (runR T R before).objs.length
    let w := runR T R (before ++ .reset :: after)
    let v := runW T (restarted N after)
    w.objs.drop N = v.objs ∧
    (∀ o, N ≤ o → o < w.objs.length → ∀ s, lookupVia w o (.str s) = (getByNameOrAlias v (.str s)).map (· + N)) ∧
    ∀ o, N ≤ o → ∀ s, aliasOk w o s = (setAlias v (o - N) s).isSome := by
  intro N w v
  have hP : Parts (runR T R before) := parts before
  have h0 : Beside T N ((runR T R before).old.length + 1) (resetR (runR T R before)) (emptyWorld T) := by
    refine ⟨(Nat.le_refl _), ?_, rfl, sameCount_reset hT, hP.gens, fun o h1 h2 => ?_, ?_⟩
    · simp [resetR, emptyWorld, N]
    · exact absurd h2 (by simp only [resetR]; omega)
    · simp [resetR]
  have h1 := beside_run (R := R) hT after hr _ _ h0
  have hw : w = runFrom T R (resetR (runR T R before)) after := by
    simp only [w, runR]; rw [runFrom_append]; rfl
  rw [← hw] at h1
  refine ⟨h1.objs, fun o ho hl s => ?_, fun o ho s => aliasOk_beside h1 ho s⟩
  unfold lookupVia
  rw [h1.gen o ho hl]
  simp only [Option.getD_some, regAt]
  rw [List.getElem?_eq_none (Nat.le_of_eq h1.old), Option.getD_none, h1.cur]
  exact aget_shift (k := .str s) (fun o => by rw [env_drop, h1.objs]; rfl) v.registry

/-- **C101** an object finds objects of its own part of the session only. -/
theorem C101_own_part (cmds : List RCmd) (o x : Nat) (k : Key)
    (ho : o < (runR T R cmds).objs.length) (h : lookupVia (runR T R cmds) o k = some x) :
    x < (runR T R cmds).objs.length ∧ (runR T R cmds).gen[x]? = (runR T R cmds).gen[o]? := by
  have hP : Parts (runR T R cmds) := parts cmds
  have hg : o < (runR T R cmds).gen.length := by rw [hP.gens]; exact ho
  unfold lookupVia at h
  rw [List.getElem?_eq_getElem hg, Option.getD_some] at h
  unfold aget rawGet at h
  rw [Option.map_eq_some_iff] at h
  obtain ⟨e, he, rfl⟩ := h
  obtain ⟨a, _, _, h3⟩ := hP.reg _ (hP.le o _ (List.getElem?_eq_getElem hg)) e (List.mem_of_find?_eq_some he)
  refine ⟨?_, by rw [h3, List.getElem?_eq_getElem hg]⟩
  rw [← hP.gens]
  by_contra hn
  rw [List.getElem?_eq_none (by omega)] at h3
  cases h3

/-! ## Objects from before the reset -/

theorem find?_congr' {α : Type} {l : List α} {p q : α → Bool} (h : ∀ a ∈ l, p a = q a) : l.find? p = l.find? q := by
  induction l with
  | nil => rfl
  | cons a l ih =>
    rw [List.find?_cons, List.find?_cons, h a (by simp), ih fun b hb => h b (by simp [hb])]

theorem any_congr' {α : Type} {l : List α} {p q : α → Bool} (h : ∀ a ∈ l, p a = q a) : l.any p = l.any q := by
  induction l with
  | nil => rfl
  | cons a l ih => rw [List.any_cons, List.any_cons, h a (by simp), ih fun b hb => h b (by simp [hb])]

/-- A lookup of a string uses the objects of the dictionary only. -/
theorem aget_congr {σ τ : Env} {d : ADict Nat} (h : ∀ e ∈ d, ∃ a, e.1 = .ali a ∧ τ a = σ a) (s : String) :
    aget τ d (.str s) = aget σ d (.str s) := by
  have h1 : ∀ e ∈ d, hashOf τ e.1 = hashOf σ e.1 := by
    intro e he; obtain ⟨a, ha, hs⟩ := h e he; rw [ha]; simp [hashOf, hs]
  have h2 : ∀ e ∈ d, keyEq τ (.str s) e.1 = keyEq σ (.str s) e.1 := by
    intro e he; obtain ⟨a, ha, hs⟩ := h e he; rw [ha]; simp [keyEq, hs]
  have h3 : keySearch τ d (.str s) = keySearch σ d (.str s) := by
    unfold keySearch rawHas
    rw [any_congr' (q := fun e => hashOf σ e.1 == hashOf σ (.str s)) (fun e he => by rw [h1 e he]; rfl),
      find?_congr' (q := fun e => keyEq σ (.str s) e.1) h2]
  have h4 : hashOf τ (keySearch σ d (.str s)) = hashOf σ (keySearch σ d (.str s)) := by
    rcases keySearch_mem (σ := σ) (d := d) (k := .str s) with h5 | ⟨e, h5, h6⟩
    · rw [h5]; rfl
    · rw [← h6]; exact h1 e h5
  unfold aget rawGet
  rw [h3, h4, find?_congr' (fun e he => by rw [h1 e he])]

/-- What later statements about later objects leave alone. -/
structure Kept (N : Nat) (w w' : RWorld) : Prop where
  len : N ≤ w'.objs.length
  objs : ∀ o < N, w'.objs[o]? = w.objs[o]?
  gen : ∀ o < N, w'.gen[o]? = w.gen[o]?
  old : ∀ g < w.old.length, w'.old[g]? = w.old[g]?
  oldLen : w.old.length ≤ w'.old.length

theorem kept_step {N : Nat} {w w' : RWorld} (h : Kept N w w') (hg : w'.gen.length = w'.objs.length) (cmd : RCmd)
    (hc : ∀ o s, cmd = .giveAlias o s → N ≤ o) : Kept N w (stepR T R w' cmd) := by
  cases cmd with
  | create c i =>
    refine ⟨?_, fun o ho => ?_, fun o ho => ?_, h.old, h.oldLen⟩
    · simp only [stepR, createR, List.length_append]; have := h.len; omega
    · simp only [stepR, createR]
      rw [List.getElem?_append_left (by have := h.len; omega)]; exact h.objs o ho
    · simp only [stepR, createR]
      rw [List.getElem?_append_left (by have := h.len; omega)]; exact h.gen o ho
  | giveAlias o s =>
    have := hc o s rfl
    simp only [stepR]
    split
    · refine ⟨by simpa using h.len, fun x hx => ?_, h.gen, h.old, h.oldLen⟩
      have hne : ¬ (o = x) := by omega
      simp only [List.getElem?_modify, hne, if_false, id_map, id_eq]
      rw [← h.objs x hx]; cases w'.objs[x]? <;> rfl
    · exact h
  | reset =>
    refine ⟨h.len, h.objs, h.gen, fun g hg => ?_, ?_⟩
    · simp only [stepR, resetR]
      rw [List.getElem?_append_left (by have := h.oldLen; omega)]; exact h.old g hg
    · simp only [stepR, resetR, List.length_append]; have := h.oldLen; omega

theorem kept_run {N : Nat} {w : RWorld} (cmds : List RCmd) (hc : ∀ o s, RCmd.giveAlias o s ∈ cmds → N ≤ o) :
    ∀ w', Kept N w w' → Parts w' → Kept N w (runFrom T R w' cmds) := by
  induction cmds with
  | nil => intro w' h _; exact h
  | cons cmd rest ih =>
    intro w' h hp
    exact ih (fun o s hm => hc o s (by simp [hm])) _
      (kept_step h hp.gens cmd fun o s he => hc o s (by simp [he])) (parts_step hp cmd)

/-- **C101** through an object from before a reset the same objects are found as before it, whatever is created and reset later
and whatever aliases later objects get. -/
theorem C101_old_lookup (before after : List RCmd) (o : Nat) (s : String)
    (ho : o < (runR T R before).objs.length)
    (hc : ∀ x a, RCmd.giveAlias x a ∈ after → (runR T R before).objs.length ≤ x) :
    lookupVia (runR T R (before ++ .reset :: after)) o (.str s) = lookupVia (runR T R before) o (.str s) := by
  have hP : Parts (runR T R before) := parts before
  have hP' : Parts (resetR (runR T R before)) := parts_step (T := T) (R := R) hP .reset
  have hK := kept_run (T := T) (R := R) (N := (runR T R before).objs.length) (w := resetR (runR T R before)) after hc
    (resetR (runR T R before)) ⟨Nat.le_refl _, fun _ _ => rfl, fun _ _ => rfl, fun _ _ => rfl, Nat.le_refl _⟩ hP'
  have hw : runR T R (before ++ .reset :: after) = runFrom T R (resetR (runR T R before)) after := by
    simp only [runR]; rw [runFrom_append]; rfl
  rw [hw]
  generalize hw1 : runR T R before = w at *
  generalize runFrom T R (resetR w) after = w' at *
  have hgo : o < w.gen.length := by rw [hP.gens]; exact ho
  have hle := hP.le o _ (List.getElem?_eq_getElem hgo)
  have hreg : regAt w' w.gen[o] = regAt w w.gen[o] := by
    have h1 := hK.old w.gen[o] (by simp only [resetR, List.length_append, List.length_cons, List.length_nil]; omega)
    have h2 : (resetR w).old = w.old ++ [w.cur] := rfl
    unfold regAt
    rw [h1, h2]
    by_cases h3 : w.gen[o] < w.old.length
    · rw [List.getElem?_append_left h3, List.getElem?_eq_getElem h3]; rfl
    · have h4 : w.gen[o] = w.old.length := by omega
      rw [h4, List.getElem?_concat_length, List.getElem?_eq_none (Nat.le_refl _)]; rfl
  unfold lookupVia
  rw [hK.gen o ho]
  have h5 : (resetR w).gen = w.gen := rfl
  rw [h5, List.getElem?_eq_getElem hgo, Option.getD_some, hreg]
  refine aget_congr (fun e he => ?_) s
  obtain ⟨a, ha, h6, _⟩ := hP.reg _ hle e he
  refine ⟨a, ha, ?_⟩
  have h7 : a < w.objs.length := by
    rw [← hP.gens]
    by_contra hn
    rw [List.getElem?_eq_none (by omega)] at h6
    cases h6
  unfold envOf
  rw [hK.objs a h7]; rfl

theorem aget_none {σ : Env} {d : ADict Nat} {s : String} :
    aget σ d (.str s) = none ↔ ∀ e ∈ d, keyEq σ e.1 (.str s) = false := by
  have hsym : ∀ k : Key, keyEq σ k (.str s) = keyEq σ (.str s) k := by
    intro k; cases k with
    | str t => simp only [keyEq]; rw [Bool.eq_iff_iff, beq_iff_eq, beq_iff_eq]; exact eq_comm
    | ali a => rfl
  have hhash : ∀ k : Key, hashOf σ k = some s → keyEq σ k (.str s) = true := by
    intro k hk; cases k with
    | str t => simp [hashOf] at hk; simp [keyEq, hk]
    | ali a => simp only [hashOf] at hk; simp [keyEq, AliasObj.members, hk]
  constructor
  · intro h e he
    by_contra hn
    simp only [Bool.not_eq_false] at hn
    unfold aget rawGet keySearch at h
    rw [Option.map_eq_none_iff, List.find?_eq_none] at h
    by_cases hr : rawHas σ d (.str s) = true
    · rw [if_pos hr] at h
      simp only [rawHas, List.any_eq_true] at hr
      obtain ⟨x, hx, hh⟩ := hr
      exact h x hx hh
    · rw [if_neg hr] at h
      cases hf : d.find? fun e => keyEq σ (.str s) e.1 with
      | none =>
        rw [List.find?_eq_none] at hf
        exact hf e he (by rw [← hsym]; exact hn)
      | some x =>
        rw [hf] at h
        exact h x (List.mem_of_find?_eq_some hf) (by simp)
  · intro h
    have h1 : rawHas σ d (.str s) = false := by
      rw [rawHas, List.any_eq_false]
      intro e he hh
      have := hhash e.1 (by simpa [hashOf] using hh)
      rw [h e he] at this; cases this
    have h2 : d.find? (fun e => keyEq σ (.str s) e.1) = none := by
      rw [List.find?_eq_none]; intro e he hh; rw [← hsym, h e he] at hh; cases hh
    unfold aget rawGet keySearch
    rw [h1, h2]
    simp only [Bool.false_eq_true, if_false, Option.map_eq_none_iff, List.find?_eq_none]
    intro e he hh
    have := hhash e.1 (by simpa [hashOf] using hh)
    rw [h e he] at this; cases this

/-- **C101** (the claim that a reset separates the parts is false) whether an object from before a reset is given an alias is
decided by the objects created after it: exactly the strings that these answer to are refused. -/
theorem C101_old_alias_iff (cmds : List RCmd) (o x : Nat) (s : String)
    (hold : (runR T R cmds).gen[o]? ≠ some (runR T R cmds).old.length)
    (hx : (runR T R cmds).gen[x]? = some (runR T R cmds).old.length) :
    aliasOk (runR T R cmds) o s = true ↔ lookupVia (runR T R cmds) x (.str s) = none := by
  have hP : Parts (runR T R cmds) := parts cmds
  generalize runR T R cmds = w at *
  have hcur : regAt w w.old.length = w.cur := by rw [regAt, List.getElem?_eq_none (Nat.le_refl _)]; rfl
  unfold lookupVia
  rw [hx, Option.getD_some, hcur, aget_none]
  have hne : ∀ e ∈ w.cur, (e.2 != o) = true := by
    intro e he
    obtain ⟨a, _, _, h3⟩ := hP.reg _ (Nat.le_refl _) e (by rw [hcur]; exact he)
    simp only [bne_iff_ne, ne_eq]
    intro h; rw [h] at h3; exact hold h3
  unfold aliasOk
  rw [Bool.not_eq_true', List.any_eq_false]
  constructor
  · intro h e he
    have := h e he
    rw [hne e he] at this
    simpa using this
  · intro h e he
    rw [h e he]; simp

/-- **C101** without objects after the reset every alias is accepted for every older object, also one that another older object
has: looking the alias up then gives the first of them only. -/
theorem C101_old_alias_any (before : List RCmd) (o : Nat) (s : String) :
    aliasOk (runR T R (before ++ [.reset])) o s = true := by
  simp only [runR]
  rw [runFrom_append]
  rfl

/-- Creations of objects. -/
def creations (cs : List (Nat × Bool)) : List RCmd := cs.map fun p => .create p.1 p.2

theorem restarted_creations (N : Nat) (cs : List (Nat × Bool)) :
    restarted N (creations cs) = cs.map fun p => Op.create p.1 p.2 := by
  induction cs with
  | nil => rfl
  | cons p cs ih =>
    have : creations (p :: cs) = .create p.1 p.2 :: creations cs := rfl
    rw [this, restarted, ih]; rfl

theorem creations_objs (cs : List (Nat × Bool)) : ∀ w : RWorld, w.objs <+: (runFrom T R w (creations cs)).objs := by
  induction cs with
  | nil => intro w; exact List.prefix_refl _
  | cons p cs ih =>
    intro w
    exact (List.prefix_append w.objs _).trans (ih (createR T R w p.1 p.2))

/-- **C101** the same creations before and after a reset give two objects with each name. -/
theorem C101_same_names (hT : ∀ c ∈ T, c.own = true) (cs : List (Nat × Bool)) :
    (runR T R (creations cs ++ .reset :: creations cs)).objs = (runR T R (creations cs)).objs ++ (runR T R (creations cs)).objs := by
  have hno : RCmd.reset ∉ creations cs := by simp [creations]
  have h1 := (C101_restart_partial (R := R) hT (creations cs) (creations cs) hno).1
  have h0 : Beside T 0 0 (emptyR T) (emptyWorld T) := by
    refine ⟨Nat.le_refl _, rfl, rfl, ?_, rfl, fun o _ h => absurd h (by simp [emptyR]), rfl⟩
    have := sameCount_reset hT
    exact ⟨this.own', this.own', fun _ => rfl, fun _ => rfl⟩
  have h2 := (beside_run (R := R) hT (creations cs) hno _ _ h0).objs
  rw [List.drop_zero, restarted_creations] at h2
  rw [restarted_creations] at h1
  have h3 : (runR T R (creations cs)).objs <+: (runR T R (creations cs ++ .reset :: creations cs)).objs := by
    simp only [runR]
    rw [runFrom_append]
    exact creations_objs cs (resetR (runFrom T R (emptyR T) (creations cs)))
  obtain ⟨r, hr⟩ := h3
  rw [← hr, List.drop_left] at h1
  rw [← hr, h1]
  exact congrArg _ h2.symm

/-- **C101** two such objects cannot be in one dictionary of sub-systems: adding the second replaces the first. -/
theorem C101_replaces (hT : ∀ c ∈ T, c.own = true) (cs : List (Nat × Bool)) (i : Nat) (hi : i < (runR T R (creations cs)).objs.length) :
    let σ := envOf (runR T R (creations cs ++ .reset :: creations cs)).objs
    let j := (runR T R (creations cs)).objs.length + i
    aset σ (aset σ [] (.ali i) i) (.ali j) j = [(.ali i, j)] := by
  intro σ j
  have hs : σ j = σ i := by
    simp only [σ, j]
    rw [C101_same_names hT]
    unfold envOf
    rw [List.getElem?_append_right (by omega), List.getElem?_append_left hi]
    simp
  clear_value σ j
  have h1 : aset σ ([] : ADict Nat) (.ali i) i = [(.ali i, i)] := by simp [aset, keySearch, rawHas, rawSet]
  have h2 : hashOf σ (.ali j) = hashOf σ (.ali i) := by
    change (σ j).name = (σ i).name; rw [hs]
  rw [h1]
  simp [aset, keySearch, rawHas, rawSet, h2]

/-! ## Result objects -/

theorem rawSet_keys {σ : Env} {d : ADict Nat} {k : Key} {v : Nat} : d.map Prod.fst <+: (rawSet σ d k v).map Prod.fst := by
  induction d with
  | nil => exact List.nil_prefix
  | cons e d ih =>
    unfold rawSet
    split
    · exact List.prefix_refl _
    · simpa using ih

/-- **C101** a reset does not empty the dictionary of the result objects: its keys stay for ever, so a run of a new simulation
still empties and reshapes the results of the objects before the reset. -/
theorem C101_results_kept (before after : List RCmd) :
    (runR T R before).results.map Prod.fst <+: (runR T R (before ++ after)).results.map Prod.fst := by
  simp only [runR]
  rw [runFrom_append]
  generalize runFrom T R (emptyR T) before = w
  induction after generalizing w with
  | nil => exact List.prefix_refl _
  | cons cmd rest ih =>
    refine List.IsPrefix.trans ?_ (ih (stepR T R w cmd))
    cases cmd with
    | create c i =>
      simp only [stepR, createR]
      split
      · exact rawSet_keys
      · exact List.prefix_refl _
    | giveAlias o s => simp only [stepR]; split <;> exact List.prefix_refl _
    | reset => exact List.prefix_refl _

theorem rawSet_same {σ : Env} {d : ADict Nat} {k : Key} {v : Nat} (h : rawHas σ d k = true) :
    (rawSet σ d k v).map Prod.fst = d.map Prod.fst := by
  induction d with
  | nil => simp [rawHas] at h
  | cons e d ih =>
    unfold rawSet
    by_cases he : (hashOf σ e.1 == hashOf σ k) = true
    · rw [if_pos he]; rfl
    · rw [if_neg he, List.map_cons, List.map_cons, ih]
      simpa [rawHas, he] using h

theorem get_rawSet {σ : Env} {d : ADict Nat} {k k' : Key} {v : Nat} (h : hashOf σ k' = hashOf σ k) :
    rawHas σ (rawSet σ d k v) k' = true ∧ rawGet σ (rawSet σ d k v) k' = some v := by
  induction d with
  | nil => simp [rawSet, rawHas, rawGet, h]
  | cons e d ih =>
    unfold rawSet
    by_cases he : (hashOf σ e.1 == hashOf σ k) = true
    · rw [if_pos he]; simp only [rawHas, rawGet, List.any_cons, List.find?_cons, h, he]; simp
    · rw [if_neg he]
      simp only [Bool.not_eq_true] at he
      unfold rawHas rawGet at ih ⊢
      rw [List.any_cons, List.find?_cons, h, he]
      rw [h] at ih
      simpa using ih

/-- **C101** a result object created after a reset takes the place of the one with its name from before: the older one is not in
the dictionary any more, and its name, and itself as a key, give the new one. -/
theorem C101_results_replaced (w : RWorld) (c o : Nat) (i : Bool) (hR : c = R)
    (hk : (Key.ali o) ∈ w.results.map Prod.fst) (ho : o < w.objs.length)
    (hn : (envOf w.objs o).name = some (namer T (increment T w.counters c i) c i)) :
    let w' := createR T R w c i
    w'.results.map Prod.fst = w.results.map Prod.fst ∧ resultOf w' (.ali o) = some w.objs.length ∧
    resultOf w' (.str (namer T (increment T w.counters c i) c i)) = some w.objs.length := by
  intro w'
  have e1 : envOf w'.objs o = envOf w.objs o := by
    simp only [w', createR, envOf]; rw [List.getElem?_append_left ho]
  have e2 : (envOf w'.objs w.objs.length).name = some (namer T (increment T w.counters c i) c i) := by
    simp [w', createR, envOf]
  have hres : w'.results = aset (envOf w'.objs) w.results (.ali w.objs.length) w.objs.length := by
    simp only [w', createR, hR, if_true]
  generalize hσ : envOf w'.objs = σ at *
  have hh : hashOf σ (.ali o) = hashOf σ (.ali w.objs.length) := by simp only [hashOf]; rw [e1, hn, e2]
  have hhas : rawHas σ w.results (.ali w.objs.length) = true := by
    rw [rawHas, List.any_eq_true]
    obtain ⟨e, he, h1⟩ := List.mem_map.mp hk
    exact ⟨e, he, by rw [h1, hh]; simp⟩
  have hset : w'.results = rawSet σ w.results (.ali w.objs.length) w.objs.length := by
    rw [hres, aset, keySearch, if_pos hhas]
  have hres2 : ∀ k, hashOf σ k = hashOf σ (.ali w.objs.length) → aget σ w'.results k = some w.objs.length := by
    intro k hk'
    have := get_rawSet (σ := σ) (d := w.results) (v := w.objs.length) hk'
    rw [hset, aget, keySearch, if_pos this.1]
    exact this.2
  refine ⟨by rw [hset]; exact rawSet_same hhas, ?_, ?_⟩
  · unfold resultOf; rw [hσ]; exact hres2 _ hh
  · unfold resultOf; rw [hσ]; exact hres2 _ (by simp only [hashOf]; rw [e2])

/-- **C101** as long as a key of the dictionary of results answers to an alias first, and no key has it as its name, the alias
gives the value of that key, also if a later object was given the alias. -/
theorem C101_results_first (w : RWorld) (l r : ADict Nat) (o x : Nat) (s : String) (hr : w.results = l ++ (.ali o, x) :: r)
    (ho : s ∈ (envOf w.objs o).alias) (hl : ∀ e ∈ l, keyEq (envOf w.objs) e.1 (.str s) = false)
    (hname : ∀ e ∈ w.results, hashOf (envOf w.objs) e.1 ≠ some s)
    (hfirst : ∀ e ∈ l, hashOf (envOf w.objs) e.1 ≠ (envOf w.objs o).name) :
    resultOf w (.str s) = some x := by
  unfold resultOf
  generalize envOf w.objs = σ at *
  have h1 : rawHas σ w.results (.str s) = false := by
    rw [rawHas, List.any_eq_false]; intro e he hh
    exact hname e he (by simpa [hashOf] using hh)
  have h2 : w.results.find? (fun e => keyEq σ (.str s) e.1) = some (.ali o, x) := by
    rw [hr, List.find?_append, List.find?_eq_none.mpr, List.find?_cons]
    · have : keyEq σ (.str s) (.ali o) = true := by simp [keyEq, AliasObj.members, ho]
      simp [this]
    · intro e he hh; rw [keyEq_comm, hl e he] at hh; cases hh
  unfold aget keySearch
  rw [h1, h2]
  simp only [Bool.false_eq_true, if_false]
  unfold rawGet
  rw [hr, List.find?_append, List.find?_eq_none.mpr, List.find?_cons]
  · simp
  · intro e he hh; exact hfirst e he (by simpa [hashOf] using hh)

/-- **C101** (negation, witness) a qubit with its results, a reset, then a cavity and a qubit with theirs: the alias under which
the states of the new qubit are stored at the end of a run (`QSim.py:355-356`) gives the results of the cavity. -/
theorem C101_results_wrong :
    let w := runR library 12 [.create 17 false, .create 12 true, .giveAlias 1 "Qubit1Results", .reset,
      .create 15 false, .create 12 true, .giveAlias 3 "Cavity1Results",
      .create 17 false, .create 12 true, .giveAlias 5 "Qubit1Results"]
    w.objs[5]? = some ⟨some "_qResults2", ["Qubit1Results"]⟩ ∧ lookupVia w 4 (.str "Qubit1Results") = some 5 ∧
    resultOf w (.str "Qubit1Results") = some 3 ∧ w.objs[3]? = some ⟨some "_qResults1", ["Cavity1Results"]⟩ := by
  refine ⟨?_, ?_, ?_, ?_⟩ <;> decide +kernel

/-! ## Examples -/

/-- A qubit and a cavity, an alias, a reset, and the qubit again; the new qubit is given the alias of the old one. -/
def twoParts : List RCmd :=
  [.create 17 false, .create 15 false, .giveAlias 0 "q", .reset, .create 17 false, .create 12 true, .giveAlias 2 "q"]

example : (runR library 12 twoParts).objs = [⟨some "Qubit1", ["q"]⟩, ⟨some "Cavity1", []⟩, ⟨some "Qubit1", ["q"]⟩, ⟨some "_qResults1", []⟩] ∧
    restarted 2 (twoParts.drop 4) = [.create 17 false, .create 12 true, .giveAlias 0 "q"] := by decide +kernel
example : lookupVia (runR library 12 twoParts) 1 (.str "q") = some 0 ∧ lookupVia (runR library 12 twoParts) 3 (.str "q") = some 2 ∧
    lookupVia (runR library 12 twoParts) 3 (.str "Cavity1") = none := by decide +kernel

/-- **C101** (negation, witness) after a reset two older objects get the same alias, which is refused without the reset; and an
older object is refused an alias because a later object has it. -/
theorem C101_old_alias_witness :
    let two : List RCmd := [.create 17 false, .create 17 false, .giveAlias 0 "q"]
    (runR library 12 (two ++ [.giveAlias 1 "q"])).objs.map AliasObj.alias = [["q"], []] ∧
    (runR library 12 (two ++ [.reset, .giveAlias 1 "q"])).objs.map AliasObj.alias = [["q"], ["q"]] ∧
    (runR library 12 (two ++ [.reset, .create 15 false, .giveAlias 2 "c", .giveAlias 1 "c"])).objs.map AliasObj.alias =
      [["q"], [], ["c"]] := by decide +kernel

example : (runR library 12 [.create 12 true, .create 12 true, .reset, .create 12 true]).results = [(.ali 0, 2), (.ali 1, 1)] := by
  decide +kernel
example : creations [(17, false), (15, false)] ++ .reset :: creations [(17, false), (15, false)] =
    [.create 17 false, .create 15 false, .reset, .create 17 false, .create 15 false] := rfl

end Verif.Names
