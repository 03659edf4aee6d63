import Verif.Obj.Attr
import Mathlib.Data.List.Basic
import Mathlib.Data.List.Nodup

/-!
C75: the state of an object that is sent to another process (`base.py:336-368`).
-/

namespace Verif.Obj

/-- A class as far as pickling is concerned: its name, and its own `__slots__` if it defines them (all classes of the
library do; a class of a user need not).  A list of these is the chain of bases, the class of the object first. -/
structure Cls where
  name : String
  slots : Option (List String)
  deriving DecidableEq

/-- `__x` with two leading underscores and not two trailing ones (`base.py:355`). -/
def isPrivate (k : String) : Bool := k.startsWith "__" && !k.endsWith "__"

/-- `getattr(cls, '__slots__', [])`: a class without own `__slots__` inherits the attribute of its base
(`base.py:338-339, 350`). -/
def slotsAttr : List Cls → List String
  | [] => []
  | d :: ds => match d.slots with
    | some l => l
    | none => slotsAttr ds

/-- `named._findInSlots` (`base.py:336-343`); the last class of the chain is the one derived from `object`. -/
def findInSlots : List Cls → String → String
  | [], k => k
  | d :: ds, k =>
    if (slotsAttr (d :: ds)).contains k then "_" ++ d.name
    else if ds.isEmpty then k else findInSlots ds k

/-- The names collected by the loop over the resolution order (`base.py:350-353`). -/
def slotLoop : List Cls → List String
  | [] => []
  | d :: ds => slotsAttr (d :: ds) ++ slotLoop ds

/-- The key under which a slot is stored, which is also the attribute that is read (`base.py:355-359`). -/
def stateKey (ch : List Cls) (k : String) : String := if isPrivate k then findInSlots ch k ++ k else k

variable {V : Type}

/-- The loop of `__getstate__` (`base.py:349-360`) over an object whose attributes are `vals`; reading an attribute that
the object does not have is an `AttributeError`.  The dictionary is given as the list of its assignments. -/
def collect (ch : List Cls) (vals : String → Option V) : List String → Except Err (List (String × V))
  | [] => .ok []
  | k :: ks =>
    if k = "__weakref__" then collect ch vals ks
    else match vals (stateKey ch k) with
      | none => .error .attribute
      | some v => match collect ch vals ks with
        | .error e => .error e
        | .ok r => .ok ((stateKey ch k, v) :: r)

/-- `__getstate__` without its effect on the registry, for which see `strengthen`. -/
def getState (ch : List Cls) (vals : String → Option V) : Except Err (List (String × V)) :=
  collect ch vals (slotLoop ch)

/-- `__setstate__` (`base.py:362-364`) on a new object. -/
def setState : List (String × V) → (String → Option V) → (String → Option V)
  | [], f => f
  | (k, v) :: r, f => setState r (fun x => if x = k then some v else f x)

/-- The attributes that the objects of a class have: the slots of all classes in the chain, mangled. -/
def realSlots (ch : List Cls) : List String :=
  ch.flatMap fun d => ((d.slots.getD []).filter (· ≠ "__weakref__")).map (mangle d.name)

/-- The chain of a class of the library. -/
def chainOf (c : String) : List Cls := (mro classes c).map fun d => ⟨d.name, some d.slots⟩

/-! ### The registry of names -/

/-- Entries of `_allInstaces`: a weak reference, the object itself, or `None`. -/
inductive Ref
  | weak (i : Nat)
  | strong (i : Nat)
  | nothing
  deriving DecidableEq, Repr

/-- The effect of `__getstate__` on the registry (`base.py:346-348`): weak references are replaced by the objects, those
to objects that do not exist any more by `None`. -/
def strengthen (alive : Nat → Bool) : List (String × Ref) → List (String × Ref)
  | [] => []
  | (k, .weak i) :: r => (k, if alive i then .strong i else .nothing) :: strengthen alive r
  | e :: r => e :: strengthen alive r

/-- The effect of `__setstate__` on the registry of the copy (`base.py:366-368`). -/
def weaken : List (String × Ref) → List (String × Ref)
  | [] => []
  | (k, .strong i) :: r => (k, .weak i) :: weaken r
  | e :: r => e :: weaken r

/-- `getByNameOrAlias` with a string (`base.py:388-398`): `ok none` is the return value `None` of a weak reference to an
object that does not exist any more. -/
def byName (alive : Nat → Bool) (reg : List (String × Ref)) (k : String) : Except Err (Option Nat) :=
  match (reg.find? fun e => e.1 = k) with
  | none => .error (.other "No object with the given name/alias")
  | some (_, .nothing) => .error (.other "No object with the given name/alias")
  | some (_, .strong i) => .ok (some i)
  | some (_, .weak i) => .ok (if alive i then some i else none)

/-! ### The state of objects of the library -/

/-- What makes the keys right: every class defines `__slots__`, a private slot occurs in one class only, and the name of
a class with private slots does not begin with an underscore. -/
structure Good (ch : List Cls) : Prop where
  slots : ∀ d ∈ ch, d.slots.isSome
  once : ch.Pairwise fun d e => ∀ k ∈ d.slots.getD [], isPrivate k = true → k ∉ e.slots.getD []
  named : ∀ d ∈ ch, (d.slots.getD []).any isPrivate = true → d.name.toList.dropWhile (· == '_') = d.name.toList

theorem slotsAttr_of {d : Cls} {ds : List Cls} (h : d.slots.isSome) : slotsAttr (d :: ds) = d.slots.getD [] := by
  unfold slotsAttr
  match hd : d.slots with
  | some l => simp [hd]
  | none => simp [hd] at h

theorem stateKey_of_good {ch : List Cls} (h : Good ch) {d : Cls} (hd : d ∈ ch) {k : String}
    (hk : k ∈ d.slots.getD []) : stateKey ch k = mangle d.name k := by
  unfold stateKey mangle
  by_cases hp : isPrivate k = true
  · have hp' : (k.startsWith "__" && !k.endsWith "__") = true := hp
    rw [if_pos hp, if_pos hp']
    have hname : String.ofList (d.name.toList.dropWhile (· == '_')) = d.name := by
      rw [h.named d hd (List.any_eq_true.2 ⟨k, hk, hp⟩)]
      simp
    rw [hname]
    congr 1
    obtain ⟨hs, ho, -⟩ := h
    clear hname
    induction ch with
    | nil => simp at hd
    | cons e es ih =>
      have he := slotsAttr_of (d := e) (ds := es) (hs e (by simp))
      rw [List.pairwise_cons] at ho
      unfold findInSlots
      rw [he]
      rcases List.mem_cons.1 hd with rfl | hd'
      · rw [if_pos (by simpa using hk)]
      · rw [if_neg, if_neg]
        · exact ih hd' (fun x hx => hs x (by simp [hx])) ho.2
        · simpa using List.ne_nil_of_mem hd'
        · intro hc
          have hc' : k ∈ e.slots.getD [] := by simpa using hc
          exact ho.1 d hd' k hc' hp hk
  · have hp' : (k.startsWith "__" && !k.endsWith "__") ≠ true := hp
    rw [if_neg hp, if_neg hp']

theorem mem_slotLoop : ∀ {ch : List Cls}, (∀ d ∈ ch, d.slots.isSome) → ∀ {k},
    k ∈ slotLoop ch ↔ ∃ d ∈ ch, k ∈ d.slots.getD []
  | [], _, k => by simp [slotLoop]
  | d :: ds, h, k => by
    unfold slotLoop
    rw [slotsAttr_of (h d (by simp)), List.mem_append, mem_slotLoop fun e he => h e (by simp [he])]
    simp

theorem setState_apply : ∀ (st : List (String × V)) (f : String → Option V) (k : String) (w : V),
    (∀ p ∈ st, p.1 = k → p.2 = w) →
    setState st f k = if k ∈ st.map (·.1) then some w else f k
  | [], f, k, w, _ => by simp [setState]
  | (k', v) :: r, f, k, w, h => by
    unfold setState
    rw [setState_apply r _ k w fun p hp => h p (by simp [hp])]
    have hv := h (k', v) (by simp)
    by_cases h1 : k ∈ r.map (·.1)
    · have h2 : k ∈ ((k', v) :: r).map (·.1) := by simp only [List.map_cons, List.mem_cons]; exact .inr h1
      rw [if_pos h1, if_pos h2]
    · rw [if_neg h1]
      by_cases h2 : k = k'
      · subst h2
        have h3 : k ∈ ((k, v) :: r).map (·.1) := by simp
        rw [if_pos h3, if_pos rfl]
        exact congrArg some (hv rfl)
      · have h3 : k ∉ ((k', v) :: r).map (·.1) := by
          simp only [List.map_cons, List.mem_cons, not_or]
          exact ⟨h2, h1⟩
        rw [if_neg h3, if_neg h2]

theorem setState_none : ∀ (st : List (String × V)) (f : String → Option V) (k : String),
    k ∉ st.map (·.1) → setState st f k = f k
  | [], f, k, _ => rfl
  | (k', v) :: r, f, k, h => by
    simp only [List.map_cons, List.mem_cons, not_or] at h
    unfold setState
    rw [setState_none r _ k h.2, if_neg h.1]

theorem collect_ok (ch : List Cls) (vals : String → Option V) : ∀ (ks : List String),
    (∀ k ∈ ks, k ≠ "__weakref__" → (vals (stateKey ch k)).isSome) →
    ∃ st, collect ch vals ks = .ok st ∧
      st.map (·.1) = (ks.filter (· ≠ "__weakref__")).map (stateKey ch) ∧ ∀ p ∈ st, vals p.1 = some p.2
  | [], _ => ⟨[], rfl, rfl, by simp⟩
  | k :: ks, h => by
    obtain ⟨st, h1, h2, h3⟩ := collect_ok ch vals ks fun x hx => h x (by simp [hx])
    unfold collect
    by_cases hk : k = "__weakref__"
    · rw [if_pos hk]
      exact ⟨st, h1, by rw [h2, List.filter_cons_of_neg (by simpa using hk)], h3⟩
    · rw [if_neg hk]
      obtain ⟨v, hv⟩ := Option.isSome_iff_exists.1 (h k (by simp) hk)
      refine ⟨(stateKey ch k, v) :: st, ?_, ?_, ?_⟩
      · simp only [hv, h1]
      · rw [List.filter_cons_of_pos (by simpa using hk), List.map_cons, List.map_cons, h2]
      · intro p hp
        rcases List.mem_cons.1 hp with rfl | hp
        · exact hv
        · exact h3 p hp

/-- Round trip: for an object of a class as described by `Good` whose attributes are all set, `__getstate__` succeeds,
and the object restored from the state has all its attributes with their values, and no others. -/
theorem C75_state_partial {ch : List Cls} (hg : Good ch) (vals : String → Option V)
    (hset : ∀ k, (vals k).isSome ↔ k ∈ realSlots ch) :
    ∃ st, getState ch vals = .ok st ∧ setState st (fun _ => none) = vals := by
  have key : ∀ {k}, k ∈ slotLoop ch → k ≠ "__weakref__" → stateKey ch k ∈ realSlots ch := by
    intro k hk hw
    obtain ⟨d, hd, hkd⟩ := (mem_slotLoop hg.slots).1 hk
    rw [stateKey_of_good hg hd hkd]
    exact List.mem_flatMap.2 ⟨d, hd, List.mem_map.2 ⟨k, List.mem_filter.2 ⟨hkd, by simpa using hw⟩, rfl⟩⟩
  obtain ⟨st, h1, h2, h3⟩ := collect_ok ch vals (slotLoop ch) fun k hk hw => (hset _).2 (key hk hw)
  refine ⟨st, h1, ?_⟩
  funext x
  by_cases hx : x ∈ realSlots ch
  · obtain ⟨v, hv⟩ := Option.isSome_iff_exists.1 ((hset x).2 hx)
    obtain ⟨d, hd, hm⟩ := List.mem_flatMap.1 hx
    obtain ⟨k, hk, rfl⟩ := List.mem_map.1 hm
    obtain ⟨hkd, hw⟩ := List.mem_filter.1 hk
    rw [setState_apply st _ _ v, if_pos, hv]
    · rw [h2]
      refine List.mem_map.2 ⟨k, List.mem_filter.2 ⟨(mem_slotLoop hg.slots).2 ⟨d, hd, hkd⟩, hw⟩, ?_⟩
      exact stateKey_of_good hg hd hkd
    · intro p hp he
      have := h3 p hp
      rw [he, hv] at this
      exact (Option.some.inj this).symm
  · have hn : vals x = none := by
      have := mt (hset x).1 hx
      simpa using this
    rw [hn]
    refine setState_none st _ x fun hm => ?_
    obtain ⟨p, hp, rfl⟩ := List.mem_map.1 hm
    have := h3 p hp
    rw [hn] at this
    simp at this

instance (ch : List Cls) : Decidable (Good ch) :=
  decidable_of_iff
    ((∀ d ∈ ch, d.slots.isSome) ∧
      (ch.Pairwise fun d e => ∀ k ∈ d.slots.getD [], isPrivate k = true → k ∉ e.slots.getD []) ∧
      ∀ d ∈ ch, (d.slots.getD []).any isPrivate = true → d.name.toList.dropWhile (· == '_') = d.name.toList)
    ⟨fun ⟨a, b, c⟩ => ⟨a, b, c⟩, fun ⟨a, b, c⟩ => ⟨a, b, c⟩⟩

theorem classes_good : ∀ c ∈ classes.map (·.name), Good (chainOf c) := by decide +kernel

/-- Every class of the library: an object whose attributes are all set can be sent to another process, and arrives with
all its attributes. -/
theorem C75_library {c : String} (hc : c ∈ classes.map (·.name)) (vals : String → Option V)
    (hset : ∀ k, (vals k).isSome ↔ k ∈ realSlots (chainOf c)) :
    ∃ st, getState (chainOf c) vals = .ok st ∧ setState st (fun _ => none) = vals :=
  C75_state_partial (classes_good c hc) vals hset

example : realSlots (chainOf "Sweep") = ["_Sweep__inds", "_Sweep__indMultip", "_qBase__superSys", "_qBase__subSys",
    "_qBase__auxDict", "_qBase__auxObj", "_named__name", "_internal", "_allInstaces"] ∧
    getState (chainOf "Sweep") (fun k => if k ∈ realSlots (chainOf "Sweep") then some k.length else none) =
      .ok [("_Sweep__inds", 12), ("_Sweep__indMultip", 17), ("_qBase__superSys", 16), ("_qBase__subSys", 14),
        ("_qBase__auxDict", 15), ("_qBase__auxObj", 14), ("_named__name", 12), ("_internal", 9),
        ("_allInstaces", 12)] := by decide +kernel

/-- Finding: a class that a user derives from one with private slots, such as `Gate`, without defining `__slots__`
cannot be sent to another process: the key is built with the name of the derived class, which inherits the attribute
`__slots__`, and there is no such attribute. -/
theorem C75_no_slots {d e : Cls} {ds : List Cls} (vals : String → Option V) {k : String}
    (hd : d.slots = none) (he : e.slots.getD [] ≠ []) (hes : e.slots.isSome)
    (hk : (e.slots.getD []).head? = some k) (hp : isPrivate k = true) (hn : vals ("_" ++ d.name ++ k) = none) :
    getState (d :: e :: ds) vals = .error .attribute := by
  have hsl : slotsAttr (d :: e :: ds) = e.slots.getD [] := by
    rw [slotsAttr, hd]
    exact slotsAttr_of hes
  obtain ⟨l, hl⟩ : ∃ l, e.slots.getD [] = k :: l := by
    match h : e.slots.getD [] with
    | [] => exact absurd h he
    | x :: l => rw [h] at hk; simp at hk; exact ⟨l, by rw [hk]⟩
  have hkey : stateKey (d :: e :: ds) k = "_" ++ d.name ++ k := by
    unfold stateKey
    rw [if_pos hp]
    unfold findInSlots
    rw [hsl, if_pos (by rw [hl]; simp)]
  unfold getState slotLoop
  rw [hsl, hl, List.cons_append, collect, if_neg, hkey, hn]
  rintro rfl
  exact absurd hp (by decide +kernel)

/-- Such a class: `class MyGate(Gate): pass`. -/
example : getState (⟨"MyGate", none⟩ :: chainOf "Gate")
    (fun k => if k ∈ realSlots (chainOf "Gate") then some k.length else none) = .error .attribute ∧
    (∃ st, getState (⟨"MyGate", some []⟩ :: chainOf "Gate")
      (fun k => if k ∈ realSlots (chainOf "Gate") then some k.length else none) = .ok st) := by
  refine ⟨by decide +kernel, ?_⟩
  refine (C75_state_partial (by decide +kernel) _ fun k => ?_).imp fun st h => h.1
  have h : realSlots (⟨"MyGate", some []⟩ :: chainOf "Gate") = realSlots (chainOf "Gate") := by simp [realSlots]
  rw [h]
  split <;> simp [*]

/-- Finding: likewise a class whose name begins with an underscore and which has a private slot. -/
theorem C75_underscore :
    getState (⟨"_myGate", some ["__angle"]⟩ :: chainOf "Gate")
      (fun k => if k ∈ realSlots (⟨"_myGate", some ["__angle"]⟩ :: chainOf "Gate") then some k.length else none) =
        .error .attribute ∧
    "_myGate__angle" ∈ realSlots (⟨"_myGate", some ["__angle"]⟩ :: chainOf "Gate") := by
  decide +kernel

/-- Finding: a derived class that uses the name of a private slot of its base again loses the base's value: it is not in
the state, so the restored object does not have it. -/
theorem C75_same_slot :
    ∃ st, getState (⟨"MyGate", some ["__implementation"]⟩ :: chainOf "Gate")
      (fun k => if k ∈ realSlots (⟨"MyGate", some ["__implementation"]⟩ :: chainOf "Gate") then some k.length
        else none) = .ok st ∧
      setState st (fun _ => none) "_MyGate__implementation" = some 23 ∧
      "_Gate__implementation" ∈ realSlots (chainOf "Gate") ∧
      setState st (fun _ => none) "_Gate__implementation" = none := by
  have H : (getState (⟨"MyGate", some ["__implementation"]⟩ :: chainOf "Gate")
      (fun k => if k ∈ realSlots (⟨"MyGate", some ["__implementation"]⟩ :: chainOf "Gate") then some k.length
        else none)).toOption.map (fun st => (setState st (fun _ => none) "_MyGate__implementation",
          setState st (fun _ => none) "_Gate__implementation")) = some (some 23, none) := by decide +kernel
  have hm : "_Gate__implementation" ∈ realSlots (chainOf "Gate") := by decide +kernel
  generalize getState (⟨"MyGate", some ["__implementation"]⟩ :: chainOf "Gate") _ = r at H ⊢
  match r with
  | .error e => simp [Except.toOption] at H
  | .ok st =>
    simp only [Except.toOption, Option.map_some, Option.some.injEq, Prod.mk.injEq] at H
    exact ⟨st, rfl, H.1, hm, H.2⟩

/-! ### The registry of names in the copy -/

theorem find?_strengthen (alive : Nat → Bool) (k : String) : ∀ reg : List (String × Ref),
    (strengthen alive reg).find? (fun e => e.1 = k) =
      (reg.find? fun e => e.1 = k).map fun e =>
        (e.1, match e.2 with | .weak i => if alive i then .strong i else .nothing | r => r)
  | [] => rfl
  | (k', .weak i) :: r => by
    by_cases h : k' = k
    · simp [strengthen, h]
    · simp [strengthen, h, find?_strengthen alive k r]
  | (k', .strong i) :: r => by
    by_cases h : k' = k
    · simp [strengthen, h]
    · simp [strengthen, h, find?_strengthen alive k r]
  | (k', .nothing) :: r => by
    by_cases h : k' = k
    · simp [strengthen, h]
    · simp [strengthen, h, find?_strengthen alive k r]

theorem find?_weaken (k : String) : ∀ reg : List (String × Ref),
    (weaken reg).find? (fun e => e.1 = k) =
      (reg.find? fun e => e.1 = k).map fun e => (e.1, match e.2 with | .strong i => .weak i | r => r)
  | [] => rfl
  | (k', .weak i) :: r => by
    by_cases h : k' = k
    · simp [weaken, h]
    · simp [weaken, h, find?_weaken k r]
  | (k', .strong i) :: r => by
    by_cases h : k' = k
    · simp [weaken, h]
    · simp [weaken, h, find?_weaken k r]
  | (k', .nothing) :: r => by
    by_cases h : k' = k
    · simp [weaken, h]
    · simp [weaken, h, find?_weaken k r]

/-- Looking up a name gives the same object (its copy, in the other process) before and after an object has been sent,
in the process that sends it and, as long as the copy is in use there, in the process that receives it. -/
theorem C75_names {alive alive' : Nat → Bool} {reg : List (String × Ref)} {k : String} {i : Nat}
    (h : byName alive reg k = .ok (some i)) (hi : alive' i = true) :
    byName alive' (strengthen alive reg) k = .ok (some i) ∧
      byName alive' (weaken (strengthen alive reg)) k = .ok (some i) := by
  unfold byName at h ⊢
  rw [find?_weaken, find?_strengthen]
  match hf : reg.find? fun e => e.1 = k with
  | none => simp [hf] at h
  | some (a, .nothing) => simp [hf] at h
  | some (a, .strong j) =>
    simp only [hf, Except.ok.injEq, Option.some.injEq] at h
    subst h
    rw [hf]
    simp [hi]
  | some (a, .weak j) =>
    simp only [hf, Except.ok.injEq] at h
    by_cases hj : alive j = true
    · rw [if_pos hj] at h
      cases h
      rw [hf]
      simp [hj, hi]
    · rw [if_neg hj] at h
      simp at h

example : byName (· < 5) [("qSystem1", .weak 3), ("Gate2", .weak 7)] "qSystem1" = .ok (some 3) ∧
    byName (· < 4) (weaken (strengthen (· < 5) [("qSystem1", .weak 3), ("Gate2", .weak 7)])) "qSystem1" =
      .ok (some 3) := by decide +kernel

/-- Finding: sending an object changes the registry of the process that sends it.  Objects that existed at that time are
found ever after, also when nothing else refers to them any more (`alive'`); and names of objects that had ceased to
exist, which gave `None`, raise an exception. -/
theorem C75_registry_changed {alive alive' : Nat → Bool} {reg : List (String × Ref)} {k k' : String} {i j : Nat}
    (h : (reg.find? fun e => e.1 = k) = some (k, .weak i)) (hi : alive i = true)
    (h' : (reg.find? fun e => e.1 = k') = some (k', .weak j)) (hj : alive j = false) :
    byName alive' (strengthen alive reg) k = .ok (some i) ∧
    (alive' i = false → byName alive' reg k = .ok none) ∧
    byName alive reg k' = .ok none ∧
    byName alive' (strengthen alive reg) k' = .error (.other "No object with the given name/alias") := by
  unfold byName
  rw [find?_strengthen, find?_strengthen, h, h']
  simp [hi, hj]

end Verif.Obj
