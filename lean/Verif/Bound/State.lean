import Verif.Bound.Model
import Verif.Init.Access

/-!
# C89: the initial state of a simulation that follows another one

`stateBase.initialState` (`QSimBase.py:182-262`) for simulations whose `__initialState` and `__initialStateInput` are bound to those of another
simulation by `timeBase._bound` (`QSimBase.py:439-498`): the simulation of a protocol follows the simulation of its system, this one may follow an
explicitly created `Simulation`.  Simplifications: a simulation is a number and the simulation of a system has the number of the system; the time
parameters are left out, a binding or an assignment may detach `__bound` as they do (`Verif.Bound.Model`); the state is created by a function of
the dimension, so parts of a composite system are left out (`Verif.Init.Model`); assigning `None` is in
`Verif.Bound.StateNone`.
-/
namespace Verif.StateBound
open Verif.Bound (B)

/-- The exceptions that occur. -/
inductive Err
  | attribute | value | recursion | other
deriving DecidableEq

/-- The input `_createState` uses (`QSystem.py:42-57`): the one it is given, or, given `None`, the one stored for the system, which is not asked
whether it is an array. -/
inductive Arg (I : Type)
  | given (i : I) | stored (i : Option I)

/-- What is needed of states `M`, inputs `I` and the numbers `_maxInput` of type `X`. -/
structure Alg (M I X : Type) where
  /-- `state.shape[0]` -/
  rows : M → Nat
  /-- `_setGetMaxInput` (`QSimBase.py:242-262`) -/
  maxOf : I → Except Err X
  /-- `_createState(inp, _maxInput)` of a system of given dimension (`QSystem.py:38-57, 152-169`); `none` is the value `None` -/
  create : Nat → Arg I → Option X → Except Err (Option M)
  /-- the default `_maxInput=1` (`QSystem.py:42`) -/
  one : X

/-- `superSys` of a simulation: a quantum system (the one with the number of the simulation), a protocol with the system it has, or nothing. -/
inductive Owner
  | system | protocol (system : Option Nat) | none
deriving DecidableEq

variable {M I X : Type}

/-- All simulations: `_timeBase__bound`, `_value` and `_bound` of `__initialState` and of `__initialStateInput`, `_maxInput`,
`_initialStateSystem`, `superSys`; and the dimensions of the systems. -/
structure Heap (M I X : Type) where
  tb : Nat → Option Nat
  stV : Nat → Option M
  stB : Nat → B
  inV : Nat → Option I
  inB : Nat → B
  mx : Nat → Option X
  iss : Nat → Option Nat
  owner : Nat → Owner
  dim : Nat → Nat

/-- `f` changed at one place. -/
def upd {α : Type} (f : Nat → α) (n : Nat) (a : α) : Nat → α := fun x => if x = n then a else f x

/-- `_parameter.value` (`QSimBase.py:109-124`) for one kind of parameter; `none` is a RecursionError. -/
def readP {α : Type} (v : Nat → Option α) (b : Nat → B) : Nat → Nat → Option (Option α)
  | 0, _ => none
  | lim + 1, s => match b s with
    | .to t => readP v b lim t
    | _ => some (v s)

/-- The getter `initialStateSystem` (`QSimBase.py:182-188`), which stores what it finds.  A protocol has no `_createState`, so its `superSys` is
used. -/
def issGet (h : Heap M I X) (s : Nat) : Except Err Nat × Heap M I X :=
  match h.iss s with
  | some n => (.ok n, h)
  | none => match h.owner s with
    | .system => (.ok s, { h with iss := upd h.iss s (some s) })
    | .protocol (some n) => (.ok n, { h with iss := upd h.iss s (some n) })
    | .protocol none => (.error .value, h)
    | .none => (.error .attribute, h)

/-- `state.value = v` (`QSimBase.py:126-129`). -/
def setV (h : Heap M I X) (s : Nat) (v : Option M) : Heap M I X := { h with stV := upd h.stV s v, stB := upd h.stB s .broken }

/-- The else branch of the getter (`QSimBase.py:219-221`) with `inp is None` in the decorator of `_createState` (`QSystem.py:53-54`). -/
def make (A : Alg M I X) (lim : Nat) (h : Heap M I X) (s : Nat) : Except Err (Option M) × Heap M I X :=
  match issGet h s with
  | (.error e, h) => (.error e, h)
  | (.ok n, h) => match readP h.inV h.inB lim s with
    | none => (.error .recursion, h)
    | some i => match (match i with | some i => some (.given i) | none => (readP h.inV h.inB lim n).map Arg.stored) with
      | none => (.error .recursion, h)
      | some i => match A.create (h.dim n) i (h.mx s) with
        | .error e => (.error e, h)
        | .ok r => (.ok r, setV h s r)

/-- The getter `initialState` (`QSimBase.py:197-224`).  If the state is bound, it is asked of `_timeBase__bound`, which is another attribute than
the `_bound` of the state.  `L` is the recursion limit; the two kinds of chains are counted separately. -/
def get (A : Alg M I X) (L : Nat) : Nat → Heap M I X → Nat → Except Err (Option M) × Heap M I X
  | 0, h, _ => (.error .recursion, h)
  | lim + 1, h, s =>
    let refresh (h : Heap M I X) : Except Err (Option M) × Heap M I X :=
      match h.stB s with
      | .to _ => match h.tb s with
        | none => (.error .attribute, h)
        | some t => match get A L lim h t with
          | (.error e, h) => (.error e, h)
          | (.ok v, h) =>
            let h := { h with stV := upd h.stV s v }
            match readP h.stV h.stB L s with
            | none => (.error .recursion, h)
            | some v => (.ok v, h)
      | _ => make A L h s
    match readP h.stV h.stB L s with
    | none => (.error .recursion, h)
    | some none => refresh h
    | some (some v) => match issGet h s with
      | (.error e, h) => (.error e, h)
      | (.ok n, h) => if A.rows v = h.dim n then (.ok (some v), h) else refresh h

/-- `_initialStateInput = inp` (`QSimBase.py:238-240`). -/
def setInput (A : Alg M I X) (h : Heap M I X) (s : Nat) (i : I) : Except Err X × Heap M I X :=
  match A.maxOf i with
  | .error e => (.error e, h)
  | .ok x => (.ok x, { h with mx := upd h.mx s (some x), inV := upd h.inV s (some i), inB := upd h.inB s .broken })

/-- The setter `initialState` of a simulation (`QSimBase.py:226-229`), which a system of its own uses too (`QSystem.py:173-191`). -/
def setSim (A : Alg M I X) (h : Heap M I X) (s : Nat) (i : I) : Except Err Unit × Heap M I X :=
  match setInput A h s i with
  | (.error e, h) => (.error e, h)
  | (.ok x, h) => match issGet h s with
    | (.error e, h) => (.error e, h)
    | (.ok n, h) => match A.create (h.dim n) (.given i) (some x) with
      | .error e => (.error e, h)
      | .ok r => (.ok (), setV h s r)

/-- The setter `initialState` of a protocol (`QPro.py:137-140`): the system of the protocol creates the state, without `_maxInput`. -/
def setPro (A : Alg M I X) (h : Heap M I X) (s : Nat) (i : I) : Except Err Unit × Heap M I X :=
  match setInput A h s i with
  | (.error e, h) => (.error e, h)
  | (.ok _, h) => match h.owner s with
    | .protocol (some n) => match A.create (h.dim n) (.given i) (some A.one) with
      | .error e => (.error e, h)
      | .ok r => (.ok (), setV h s r)
    | _ => (.error .attribute, h)

/-- `_boundTree(osys)` (`QSimBase.py:425-437`). -/
def boundTree (tb : Nat → Option Nat) : Nat → Nat → Option (List Nat)
  | 0, _ => none
  | lim + 1, o => match tb o with
    | none => some []
    | some b => (boundTree tb lim b).map (b :: ·)

/-- `c._bound(p, re=re)` (`QSimBase.py:439-498`).  `detach`: assigning the time parameters of `c` again (`QSimBase.py:480-489`) has removed
`_timeBase__bound` (`QSimBase.py:57-59`). -/
def bind (lim : Nat) (h : Heap M I X) (c p : Nat) (re detach : Bool) : Except Err Unit × Heap M I X :=
  match boundTree h.tb lim p with
  | none => (.error .recursion, h)
  | some tree =>
    if c ∈ tree then (.ok (), h)
    else (.ok (), { h with
      tb := upd h.tb c (if detach then none else some p)
      stB := if h.stB c = .none ∨ re = true then upd h.stB c (.to p) else h.stB
      inB := if h.inB c = .none ∨ re = true then upd h.inB c (.to p) else h.inB })

/-- What the user and the library do: assigning an initial state to a simulation or system, to a protocol; the dimension of a system; a time
parameter (`QSimBase.py:57-59`); the initial state of a part of a composite system (`QSystem.py:181-182`); binding; `protocol.system = n`
(`QPro.py:187-193`); `initialStateSystem = n` (`QSimBase.py:190-194`); reading. -/
inductive Cmd (I : Type)
  | setSim (s : Nat) (i : I)
  | setPro (s : Nat) (i : I)
  | setDim (n d : Nat)
  | time (s : Nat)
  | part (s : Nat)
  | bind (c p : Nat) (re detach : Bool)
  | move (s n : Nat) (detach : Bool)
  | setIss (s n : Nat)
  | read (s : Nat)

/-- One command; after an exception the program goes on with what it left. -/
def exec (A : Alg M I X) (lim : Nat) (h : Heap M I X) : Cmd I → Heap M I X
  | .setSim s i => (setSim A h s i).2
  | .setPro s i => (setPro A h s i).2
  | .setDim n d => { h with dim := upd h.dim n d }
  | .time s => { h with tb := upd h.tb s none }
  | .part s => setV h s none
  | .bind c p re detach => (bind lim h c p re detach).2
  | .move s n detach =>
    let h := { h with owner := upd h.owner s (.protocol (some n)) }
    match h.tb s with
    | none => (bind lim h s n false detach).2
    | some _ => h
  | .setIss s n => { h with iss := upd h.iss s (some n) }
  | .read s => (get A lim lim h s).2

/-- A program. -/
def run (A : Alg M I X) (lim : Nat) (l : List (Cmd I)) (h : Heap M I X) : Heap M I X := l.foldl (exec A lim) h

/-- Newly created simulations of given owners and systems of given dimensions. -/
def fresh (owner : Nat → Owner) (dim : Nat → Nat) : Heap M I X where
  tb := fun _ => none
  stV := fun _ => none
  stB := fun _ => .none
  inV := fun _ => none
  inB := fun _ => .none
  mx := fun _ => none
  iss := fun _ => none
  owner := owner
  dim := dim

/-! ### Specification -/

/-- The system a simulation makes its states for. -/
def system (h : Heap M I X) (s : Nat) : Except Err Nat :=
  match h.iss s with
  | some n => .ok n
  | none => match h.owner s with
    | .system => .ok s
    | .protocol (some n) => .ok n
    | .protocol none => .error .value
    | .none => .error .attribute

/-- `c` gets its initial state from `p`: it never had one of its own, it is still bound to `p` in the time parameters, and both are for the same
system. -/
def Linked (h : Heap M I X) (c p : Nat) : Prop :=
  h.stB c = .to p ∧ h.tb c = some p ∧ ∃ n, system h c = .ok n ∧ system h p = .ok n

/-- The bindings go down in rank: protocols follow systems, systems follow simulations. -/
structure Ranked (rank : Nat → Nat) (h : Heap M I X) : Prop where
  tb : ∀ s t, h.tb s = some t → rank t < rank s
  st : ∀ s t, h.stB s = .to t → rank t < rank s
  inp : ∀ s t, h.inB s = .to t → rank t < rank s

/-- The command binds downwards only. -/
def Down (rank : Nat → Nat) : Cmd I → Prop
  | .bind c p _ _ => rank p < rank c
  | .move s n _ => rank n < rank s
  | _ => True

/-- The command gives the simulation `s` another initial state or another parent. -/
def Touches (s : Nat) : Cmd I → Prop
  | .setSim c _ => c = s
  | .setPro c _ => c = s
  | .time c => c = s
  | .part c => c = s
  | .bind c _ _ _ => c = s
  | .move c _ _ => c = s
  | .setIss c _ => c = s
  | _ => False

/-- The command assigns the initial state of `s`, or binds it again by force. -/
def Assigns (s : Nat) : Cmd I → Prop
  | .setSim c _ => c = s
  | .setPro c _ => c = s
  | .bind c _ re _ => c = s ∧ re = true
  | _ => False

/-- The command gives the simulation another system. -/
def Moves (s : Nat) : Cmd I → Prop
  | .move c _ _ => c = s
  | .setIss c _ => c = s
  | _ => False

/-- A created state fits the dimension. -/
def Alg.Fits (A : Alg M I X) : Prop := ∀ d i x v, A.create d i x = .ok (some v) → A.rows v = d

/-! ### Lemmas -/

theorem issGet_spec (h : Heap M I X) (s : Nat) : (issGet h s).1 = system h s ∧
    ∃ f, (issGet h s).2 = { h with iss := f } ∧ ∀ x, system { h with iss := f } x = system h x := by
  unfold issGet
  cases h1 : h.iss s with
  | some n => exact ⟨by simp [system, h1], h.iss, rfl, fun _ => rfl⟩
  | none =>
    dsimp only
    cases h2 : h.owner s with
    | none => exact ⟨by simp [system, h1, h2], h.iss, rfl, fun _ => rfl⟩
    | system =>
      refine ⟨by simp [system, h1, h2], upd h.iss s (some s), rfl, fun x => ?_⟩
      by_cases hx : x = s
      · subst hx; simp [system, upd, h1, h2]
      · simp [system, upd, hx]
    | protocol o =>
      cases o with
      | none => exact ⟨by simp [system, h1, h2], h.iss, rfl, fun _ => rfl⟩
      | some n =>
        refine ⟨by simp [system, h1, h2], upd h.iss s (some n), rfl, fun x => ?_⟩
        by_cases hx : x = s
        · subst hx; simp [system, upd, h1, h2]
        · simp [system, upd, hx]

/-- The part of the heap that matters once the systems are known. -/
structure Core (M I X : Type) where
  tb : Nat → Option Nat
  stV : Nat → Option M
  stB : Nat → B
  inV : Nat → Option I
  inB : Nat → B
  mx : Nat → Option X
  dim : Nat → Nat

def Heap.core (h : Heap M I X) : Core M I X := ⟨h.tb, h.stV, h.stB, h.inV, h.inB, h.mx, h.dim⟩

/-- The new value in the else branch of the getter. -/
def makeC (A : Alg M I X) (sys : Nat → Except Err Nat) (lim : Nat) (c : Core M I X) (s : Nat) : Except Err (Option M) :=
  match sys s with
  | .error e => .error e
  | .ok n => match readP c.inV c.inB lim s with
    | none => .error .recursion
    | some i => match (match i with | some i => some (.given i) | none => (readP c.inV c.inB lim n).map Arg.stored) with
      | none => .error .recursion
      | some i => A.create (c.dim n) i (c.mx s)

/-- There is a state and it has the dimension of the system. -/
def fresh? (A : Alg M I X) (c : Core M I X) : Option M → Except Err Nat → Bool
  | some v, .ok n => A.rows v == c.dim n
  | _, _ => false

/-- The getter with the systems given. -/
def getC (A : Alg M I X) (sys : Nat → Except Err Nat) (L : Nat) : Nat → Core M I X → Nat → Except Err (Option M) × Core M I X
  | 0, c, _ => (.error .recursion, c)
  | lim + 1, c, s =>
    match readP c.stV c.stB L s, sys s with
    | none, _ => (.error .recursion, c)
    | some (some _), .error e => (.error e, c)
    | some v, sn =>
      if fresh? A c v sn = true then (.ok v, c)
      else match c.stB s with
        | .to _ => match c.tb s with
          | none => (.error .attribute, c)
          | some t => match getC A sys L lim c t with
            | (.error e, c) => (.error e, c)
            | (.ok v, c) =>
              let c := { c with stV := upd c.stV s v }
              match readP c.stV c.stB L s with
              | none => (.error .recursion, c)
              | some v => (.ok v, c)
        | _ => match makeC A sys L c s with
          | .error e => (.error e, c)
          | .ok r => (.ok r, { c with stV := upd c.stV s r, stB := upd c.stB s .broken })

theorem make_core (A : Alg M I X) (lim : Nat) (h : Heap M I X) (s : Nat) :
    (make A lim h s).1 = makeC A (system h) lim h.core s ∧
    (make A lim h s).2.core = (match makeC A (system h) lim h.core s with
      | .error _ => h.core
      | .ok r => { h.core with stV := upd h.stV s r, stB := upd h.stB s .broken }) ∧
    (∀ x, system (make A lim h s).2 x = system h x) ∧ (make A lim h s).2.owner = h.owner := by
  obtain ⟨h1, f, h2, h3⟩ := issGet_spec h s
  unfold make makeC
  generalize issGet h s = g at h1 h2
  obtain ⟨r, g⟩ := g
  dsimp only at h1 h2
  subst h2
  rw [← h1]
  cases r with
  | error e => exact ⟨rfl, rfl, h3, rfl⟩
  | ok n =>
    dsimp only [Heap.core]
    cases h4 : readP h.inV h.inB lim s with
    | none => exact ⟨rfl, rfl, h3, rfl⟩
    | some i =>
      dsimp only
      generalize (match i with | some i => some (Arg.given i) | none => (readP h.inV h.inB lim n).map Arg.stored) = j
      cases j with
      | none => exact ⟨rfl, rfl, h3, rfl⟩
      | some j =>
        dsimp only
        cases h5 : A.create (h.dim n) j (h.mx s) with
        | error e => exact ⟨rfl, rfl, h3, rfl⟩
        | ok r => exact ⟨rfl, rfl, h3, rfl⟩

theorem get_core (A : Alg M I X) (L lim : Nat) (h : Heap M I X) (s : Nat) :
    (get A L lim h s).1 = (getC A (system h) L lim h.core s).1 ∧ (get A L lim h s).2.core = (getC A (system h) L lim h.core s).2 ∧
    (∀ x, system (get A L lim h s).2 x = system h x) ∧ (get A L lim h s).2.owner = h.owner := by
  induction lim generalizing h s with
  | zero => exact ⟨rfl, rfl, fun _ => rfl, rfl⟩
  | succ lim ih =>
    -- the refreshing part, for any heap with the same core
    have key : ∀ g : Heap M I X, g.core = h.core → (∀ x, system g x = system h x) → g.owner = h.owner →
        let a := (match g.stB s with
          | .to _ => match g.tb s with
            | none => (.error .attribute, g)
            | some t => match get A L lim g t with
              | (.error e, h) => (.error e, h)
              | (.ok v, h) =>
                let h := { h with stV := upd h.stV s v }
                match readP h.stV h.stB L s with
                | none => (.error .recursion, h)
                | some v => (.ok v, h)
          | _ => make A L g s : Except Err (Option M) × Heap M I X)
        let b := (match h.core.stB s with
          | .to _ => match h.core.tb s with
            | none => (.error .attribute, h.core)
            | some t => match getC A (system h) L lim h.core t with
              | (.error e, c) => (.error e, c)
              | (.ok v, c) =>
                let c := { c with stV := upd c.stV s v }
                match readP c.stV c.stB L s with
                | none => (.error .recursion, c)
                | some v => (.ok v, c)
          | _ => match makeC A (system h) L h.core s with
            | .error e => (.error e, h.core)
            | .ok r => (.ok r, { h.core with stV := upd h.core.stV s r, stB := upd h.core.stB s .broken }) : Except Err (Option M) × Core M I X)
        a.1 = b.1 ∧ a.2.core = b.2 ∧ (∀ x, system a.2 x = system h x) ∧ a.2.owner = h.owner := by
      intro g hg hs ho
      have hsys : system g = system h := funext hs
      have e1 : g.stB = h.core.stB := congrArg Core.stB hg
      have e2 : g.tb = h.core.tb := congrArg Core.tb hg
      have hmake : let a := make A L g s
          let b := (match makeC A (system h) L h.core s with
            | .error e => (.error e, h.core)
            | .ok r => (.ok r, { h.core with stV := upd h.core.stV s r, stB := upd h.core.stB s .broken }) : Except Err (Option M) × Core M I X)
          a.1 = b.1 ∧ a.2.core = b.2 ∧ (∀ x, system a.2 x = system h x) ∧ a.2.owner = h.owner := by
        obtain ⟨m1, m2, m3, m4⟩ := make_core A L g s
        rw [hg, hsys] at m1
        rw [hg, hsys] at m2
        have e3 : g.stV = h.core.stV := congrArg Core.stV hg
        rw [e1, e3] at m2
        dsimp only
        refine ⟨?_, ?_, fun x => by rw [m3 x, hs], by rw [m4, ho]⟩
        · rw [m1]; cases makeC A (system h) L h.core s <;> rfl
        · rw [m2]; cases makeC A (system h) L h.core s <;> rfl
      dsimp only
      rw [e1, e2]
      cases hb : h.core.stB s with
      | none => exact hmake
      | broken => exact hmake
      | «to» t0 =>
        dsimp only
        cases ht : h.core.tb s with
        | none => exact ⟨rfl, hg, hs, ho⟩
        | some t =>
          dsimp only
          obtain ⟨i1, i2, i3, i4⟩ := ih g t
          rw [hg, hsys] at i1 i2
          generalize get A L lim g t = gg at i1 i2 i3 i4
          generalize getC A (system h) L lim h.core t = cc at i1 i2
          obtain ⟨r, g'⟩ := gg
          obtain ⟨r', c'⟩ := cc
          dsimp only at i1 i2 i3 i4
          subst i1
          subst i2
          cases r with
          | error e => exact ⟨rfl, rfl, fun x => by rw [i3 x, hs], by rw [i4, ho]⟩
          | ok v =>
            dsimp only [Heap.core]
            cases readP (upd g'.stV s v) g'.stB L s with
            | none => exact ⟨rfl, rfl, fun x => by rw [← hs, ← i3 x]; rfl, by rw [← ho, ← i4]⟩
            | some w => exact ⟨rfl, rfl, fun x => by rw [← hs, ← i3 x]; rfl, by rw [← ho, ← i4]⟩
    obtain ⟨h1, f, h2, h3⟩ := issGet_spec h s
    simp only [get, getC]
    have er : readP h.core.stV h.core.stB L s = readP h.stV h.stB L s := rfl
    rw [er]
    cases hr : readP h.stV h.stB L s with
    | none => exact ⟨rfl, rfl, fun _ => rfl, rfl⟩
    | some v =>
      cases v with
      | none =>
        dsimp only
        have := key h rfl (fun _ => rfl) rfl
        simpa [fresh?] using this
      | some v =>
        dsimp only
        generalize issGet h s = g at h1 h2
        obtain ⟨r, g⟩ := g
        dsimp only at h1 h2
        subst h2
        rw [← h1]
        cases r with
        | error e => exact ⟨rfl, rfl, h3, rfl⟩
        | ok n =>
          dsimp only
          by_cases hd : A.rows v = h.dim n
          · rw [if_pos hd, if_pos (by simpa [Heap.core, fresh?] using hd)]
            exact ⟨rfl, rfl, h3, rfl⟩
          · rw [if_neg hd, if_neg (by simpa [Heap.core, fresh?] using hd)]
            exact key { h with iss := f } rfl h3 rfl

theorem readP_upd {α : Type} (v : Nat → Option α) (b : Nat → B) (s t : Nat) (x : Option α) (hb : b s = .to t) (lim u : Nat) :
    readP (upd v s x) b lim u = readP v b lim u := by
  induction lim generalizing u with
  | zero => rfl
  | succ lim ih =>
    simp only [readP]
    cases hu : b u with
    | «to» w => exact ih w
    | none =>
      have : u ≠ s := by rintro rfl; rw [hb] at hu; cases hu
      simp [upd, this]
    | broken =>
      have : u ≠ s := by rintro rfl; rw [hb] at hu; cases hu
      simp [upd, this]

theorem readP_stable {α : Type} (rank : Nat → Nat) (v : Nat → Option α) (b : Nat → B) (hb : ∀ s t, b s = .to t → rank t < rank s) (l l' s : Nat)
    (h : rank s < l) (h' : rank s < l') : readP v b l s = readP v b l' s := by
  induction l generalizing l' s with
  | zero => omega
  | succ l ih =>
    obtain ⟨k, rfl⟩ : ∃ k, l' = k + 1 := ⟨l' - 1, by omega⟩
    simp only [readP]
    cases hs : b s with
    | «to» t => have := hb s t hs; exact ih k t (by omega) (by omega)
    | none => rfl
    | broken => rfl

theorem readP_some {α : Type} (rank : Nat → Nat) (v : Nat → Option α) (b : Nat → B) (hb : ∀ s t, b s = .to t → rank t < rank s) (l s : Nat)
    (h : rank s < l) : ∃ x, readP v b l s = some x := by
  induction l generalizing s with
  | zero => omega
  | succ l ih =>
    simp only [readP]
    cases hs : b s with
    | «to» t => have := hb s t hs; exact ih t (by omega)
    | none => exact ⟨_, rfl⟩
    | broken => exact ⟨_, rfl⟩

theorem readP_link {α : Type} (rank : Nat → Nat) (v : Nat → Option α) (b : Nat → B) (hb : ∀ s t, b s = .to t → rank t < rank s) (l s t : Nat)
    (h : rank s < l) (hs : b s = .to t) : readP v b l s = readP v b l t := by
  obtain ⟨k, rfl⟩ : ∃ k, l = k + 1 := ⟨l - 1, by omega⟩
  have := hb s t hs
  rw [show readP v b (k + 1) s = readP v b k t by simp [readP, hs]]
  exact readP_stable rank v b hb _ _ _ (by omega) (by omega)

theorem getC_frame (A : Alg M I X) (sys : Nat → Except Err Nat) (L lim : Nat) (c : Core M I X) (s : Nat) :
    (getC A sys L lim c s).2.tb = c.tb ∧ (getC A sys L lim c s).2.inV = c.inV ∧ (getC A sys L lim c s).2.inB = c.inB ∧
    (getC A sys L lim c s).2.mx = c.mx ∧ (getC A sys L lim c s).2.dim = c.dim ∧
    ∀ x, (getC A sys L lim c s).2.stB x = c.stB x ∨ ((getC A sys L lim c s).2.stB x = .broken ∧ ∀ t, c.stB x ≠ .to t) := by
  induction lim generalizing c s with
  | zero => exact ⟨rfl, rfl, rfl, rfl, rfl, fun x => .inl rfl⟩
  | succ lim ih =>
    have triv : c.tb = c.tb ∧ c.inV = c.inV ∧ c.inB = c.inB ∧ c.mx = c.mx ∧ c.dim = c.dim ∧
      ∀ x, c.stB x = c.stB x ∨ (c.stB x = .broken ∧ ∀ t, c.stB x ≠ .to t) := ⟨rfl, rfl, rfl, rfl, rfl, fun x => .inl rfl⟩
    have hmake : (∀ t, c.stB s ≠ .to t) → ∀ d : Except Err (Option M) × Core M I X, (match makeC A sys L c s with
        | .error e => (.error e, c)
        | .ok r => (.ok r, { c with stV := upd c.stV s r, stB := upd c.stB s .broken }) : Except Err (Option M) × Core M I X) = d →
        d.2.tb = c.tb ∧ d.2.inV = c.inV ∧ d.2.inB = c.inB ∧ d.2.mx = c.mx ∧ d.2.dim = c.dim ∧
        ∀ x, d.2.stB x = c.stB x ∨ (d.2.stB x = .broken ∧ ∀ t, c.stB x ≠ .to t) := by
      intro hb d hd
      subst hd
      cases makeC A sys L c s with
      | error e => exact triv
      | ok r =>
        refine ⟨rfl, rfl, rfl, rfl, rfl, fun x => ?_⟩
        by_cases hx : x = s
        · subst hx; exact .inr ⟨by simp [upd], hb⟩
        · left; simp [upd, hx]
    simp only [getC]
    split
    · exact triv
    · exact triv
    · split
      · exact triv
      · cases hb : c.stB s with
        | none => exact hmake (by intro t; rw [hb]; simp) _ rfl
        | broken => exact hmake (by intro t; rw [hb]; simp) _ rfl
        | «to» t0 =>
          dsimp only
          cases ht : c.tb s with
          | none => exact triv
          | some t =>
            dsimp only
            have := ih c t
            generalize getC A sys L lim c t = g at this
            obtain ⟨r, c'⟩ := g
            cases r with
            | error e => exact this
            | ok v =>
              dsimp only at this ⊢
              cases readP (upd c'.stV s v) c'.stB L s <;> exact this

theorem getC_value (A : Alg M I X) (sys : Nat → Except Err Nat) (L lim : Nat) (hL : 0 < L) (c c' : Core M I X) (s : Nat) (v : Option M)
    (h : getC A sys L lim c s = (.ok v, c')) : readP c'.stV c'.stB L s = some v := by
  cases lim with
  | zero => cases h
  | succ lim =>
    obtain ⟨K, rfl⟩ : ∃ K, L = K + 1 := ⟨L - 1, by omega⟩
    have hmake : (match makeC A sys (K + 1) c s with
        | .error e => (.error e, c)
        | .ok r => (.ok r, { c with stV := upd c.stV s r, stB := upd c.stB s .broken }) : Except Err (Option M) × Core M I X) = (.ok v, c') →
        readP c'.stV c'.stB (K + 1) s = some v := by
      intro h
      cases hm : makeC A sys (K + 1) c s with
      | error e => rw [hm] at h; cases h
      | ok r => rw [hm] at h; cases h; simp [readP, upd]
    simp only [getC] at h
    split at h
    · cases h
    · cases h
    · next hr _ =>
      split at h
      · cases h; exact hr
      · cases hb : c.stB s with
        | none => rw [hb] at h; exact hmake h
        | broken => rw [hb] at h; exact hmake h
        | «to» t0 =>
          rw [hb] at h
          dsimp only at h
          cases ht : c.tb s with
          | none => rw [ht] at h; cases h
          | some t =>
            rw [ht] at h
            dsimp only at h
            generalize getC A sys (K + 1) lim c t = g at h
            obtain ⟨r, c2⟩ := g
            cases r with
            | error e => cases h
            | ok w =>
              dsimp only at h
              cases h2 : readP (upd c2.stV s w) c2.stB (K + 1) s with
              | none => rw [h2] at h; cases h
              | some w' => rw [h2] at h; cases h; exact h2

theorem getC_stable (A : Alg M I X) (sys : Nat → Except Err Nat) (rank : Nat → Nat) (L : Nat) (l l' : Nat) (c : Core M I X) (s : Nat)
    (ht : ∀ s t, c.tb s = some t → rank t < rank s) (h : rank s < l) (h' : rank s < l') : getC A sys L l c s = getC A sys L l' c s := by
  induction l generalizing l' s with
  | zero => omega
  | succ l ih =>
    obtain ⟨k, rfl⟩ : ∃ k, l' = k + 1 := ⟨l' - 1, by omega⟩
    simp only [getC]
    cases hb : c.tb s with
    | none => rfl
    | some t =>
      have := ht s t hb
      dsimp only
      rw [ih k t (by omega) (by omega)]

/-- A simulation that follows another one shows the same initial state. -/
theorem getC_linked (A : Alg M I X) (sys : Nat → Except Err Nat) (rank : Nat → Nat) (L : Nat) (c : Core M I X) (s p n : Nat)
    (ht : ∀ s t, c.tb s = some t → rank t < rank s) (hst : ∀ s t, c.stB s = .to t → rank t < rank s) (hL : ∀ x, rank x < L)
    (h1 : c.stB s = .to p) (h2 : c.tb s = some p) (h3 : sys s = .ok n) (h4 : sys p = .ok n) :
    (getC A sys L L c s).1 = (getC A sys L L c p).1 := by
  obtain ⟨K, rfl⟩ : ∃ K, L = K + 1 := ⟨L - 1, by have := hL 0; omega⟩
  have hr : readP c.stV c.stB (K + 1) s = readP c.stV c.stB (K + 1) p := readP_link rank _ _ hst _ _ _ (hL s) h1
  have hps := ht s p h2
  have hst' : getC A sys (K + 1) K c p = getC A sys (K + 1) (K + 1) c p :=
    getC_stable A sys rank _ _ _ c p ht (by have := hL s; omega) (hL p)
  have hsome := readP_some rank c.stV c.stB hst (K + 1) p (hL p)
  obtain ⟨v, hv⟩ := hsome
  -- what is shown if the state has to be refreshed
  have hre : (match getC A sys (K + 1) (K + 1) c p with
      | (.error e, c) => (.error e, c)
      | (.ok v, c) => match readP (upd c.stV s v) c.stB (K + 1) s with
        | none => (.error .recursion, { c with stV := upd c.stV s v })
        | some w => (.ok w, { c with stV := upd c.stV s v }) : Except Err (Option M) × Core M I X).1 = (getC A sys (K + 1) (K + 1) c p).1 := by
    have hfr := getC_frame A sys (K + 1) (K + 1) c p
    cases hg : getC A sys (K + 1) (K + 1) c p with
    | mk r c' =>
      cases r with
      | error e => rfl
      | ok w =>
        have hv' := getC_value A sys (K + 1) (K + 1) (by omega) c c' p w hg
        rw [hg] at hfr
        obtain ⟨-, -, -, -, -, f6⟩ := hfr
        have hb' : c'.stB s = .to p := by
          rcases f6 s with h | ⟨-, h⟩
          · exact h.trans h1
          · exact absurd h1 (h p)
        have hst2 : ∀ s t, c'.stB s = .to t → rank t < rank s := by
          intro x t hx
          rcases f6 x with h | ⟨h, -⟩
          · exact hst x t (by rw [← h]; exact hx)
          · rw [show c'.stB x = .broken from h] at hx; cases hx
        dsimp only
        rw [readP_upd _ _ s p w hb', readP_link rank _ _ hst2 _ _ _ (hL s) hb', hv']
  have hL1 : getC A sys (K + 1) (K + 1) c s = (match readP c.stV c.stB (K + 1) s, sys s with
    | none, _ => (.error .recursion, c)
    | some (some _), .error e => (.error e, c)
    | some v, sn =>
      if fresh? A c v sn = true then (.ok v, c)
      else match getC A sys (K + 1) (K + 1) c p with
        | (.error e, c) => (.error e, c)
        | (.ok v, c) => match readP (upd c.stV s v) c.stB (K + 1) s with
          | none => (.error .recursion, { c with stV := upd c.stV s v })
          | some w => (.ok w, { c with stV := upd c.stV s v })) := by
    conv_lhs => unfold getC
    rw [h1, h2]
    dsimp only
    rw [hst']
  rw [hL1, hr, hv, h3]
  cases v with
  | none => simp only [fresh?, Bool.false_eq_true, if_false]; exact hre
  | some v =>
    dsimp only
    by_cases hd : A.rows v = c.dim n
    · rw [if_pos (by simpa [fresh?] using hd)]
      conv_rhs => unfold getC
      rw [hv, h4]
      dsimp only
      rw [if_pos (by simpa [fresh?] using hd)]
    · rw [if_neg (by simpa [fresh?] using hd)]
      exact hre

/-- The simulation `p` has been given the input `i`; the stored state is made of it. -/
structure Own (A : Alg M I X) (c : Core M I X) (p : Nat) (i : I) (x : X) (Y : X → Prop) : Prop where
  st : c.stB p = .broken
  inp : c.inB p = .broken
  val : c.inV p = some i
  mx : c.mx p = some x
  made : ∀ v, c.stV p = some v → ∃ d y, Y y ∧ A.create d (.given i) (some y) = .ok (some v)

theorem makeC_own (A : Alg M I X) (sys : Nat → Except Err Nat) (L : Nat) (hL : 0 < L) (c : Core M I X) (p : Nat) (i : I) (x : X) (Y : X → Prop)
    (ho : Own A c p i x Y) : makeC A sys L c p = match sys p with | .error e => .error e | .ok n => A.create (c.dim n) (.given i) (some x) := by
  obtain ⟨K, rfl⟩ : ∃ K, L = K + 1 := ⟨L - 1, by omega⟩
  unfold makeC
  cases sys p with
  | error e => rfl
  | ok n => simp [readP, ho.inp, ho.val, ho.mx]

theorem getC_own (A : Alg M I X) (sys : Nat → Except Err Nat) (L lim : Nat) (hL : 0 < L) (c : Core M I X) (s p : Nat) (i : I) (x : X)
    (Y : X → Prop) (hY : Y x) (ho : Own A c p i x Y) : Own A (getC A sys L lim c s).2 p i x Y := by
  induction lim generalizing c s with
  | zero => exact ho
  | succ lim ih =>
    have hmake : Own A (match makeC A sys L c s with
        | .error e => (.error e, c)
        | .ok r => (.ok r, { c with stV := upd c.stV s r, stB := upd c.stB s .broken }) : Except Err (Option M) × Core M I X).2 p i x Y := by
      by_cases hs : s = p
      · subst hs
        rw [makeC_own A sys L hL c s i x Y ho]
        cases sys s with
        | error e => exact ho
        | ok n =>
          dsimp only
          cases hc : A.create (c.dim n) (.given i) (some x) with
          | error e => exact ho
          | ok r =>
            refine ⟨by simp [upd], ho.inp, ho.val, ho.mx, fun v hv => ?_⟩
            simp only [upd, if_true] at hv
            subst hv
            exact ⟨_, x, hY, hc⟩
      · cases makeC A sys L c s with
        | error e => exact ho
        | ok r =>
          have hne : p ≠ s := fun h => hs h.symm
          exact ⟨by simp [upd, hne, ho.st], ho.inp, ho.val, ho.mx, fun v hv => ho.made v (by simpa [upd, hne] using hv)⟩
    simp only [getC]
    split
    · exact ho
    · exact ho
    · split
      · exact ho
      · cases hb : c.stB s with
        | none => exact hmake
        | broken => exact hmake
        | «to» t0 =>
          dsimp only
          cases ht : c.tb s with
          | none => exact ho
          | some t =>
            dsimp only
            have := ih c t ho
            generalize getC A sys L lim c t = g at this
            obtain ⟨r, c'⟩ := g
            cases r with
            | error e => exact this
            | ok v =>
              have hne : p ≠ s := by rintro rfl; rw [ho.st] at hb; cases hb
              have h2 : Own A { c' with stV := upd c'.stV s v } p i x Y :=
                ⟨this.st, this.inp, this.val, this.mx, fun w hw => this.made w (by simpa [upd, hne] using hw)⟩
              dsimp only
              cases readP (upd c'.stV s v) c'.stB L s <;> exact h2

/-- The state of a simulation with an input of its own is made from it, for the present dimension. -/
theorem getC_own_value (A : Alg M I X) (hA : A.Fits) (sys : Nat → Except Err Nat) (L : Nat) (hL : 0 < L) (c : Core M I X) (p n : Nat) (i : I)
    (x : X) (Y : X → Prop) (hY : Y x) (ho : Own A c p i x Y) (hs : sys p = .ok n) :
    ∃ y, Y y ∧ (getC A sys L L c p).1 = A.create (c.dim n) (.given i) (some y) := by
  obtain ⟨K, rfl⟩ : ∃ K, L = K + 1 := ⟨L - 1, by omega⟩
  have hr : readP c.stV c.stB (K + 1) p = some (c.stV p) := by simp [readP, ho.st]
  have hm := makeC_own A sys (K + 1) hL c p i x Y ho
  rw [hs] at hm
  dsimp only at hm
  have hmake : ∃ y, Y y ∧ (match makeC A sys (K + 1) c p with
        | .error e => (.error e, c)
        | .ok r => (.ok r, { c with stV := upd c.stV p r, stB := upd c.stB p .broken }) : Except Err (Option M) × Core M I X).1 =
      A.create (c.dim n) (.given i) (some y) := by
    refine ⟨x, hY, ?_⟩
    rw [hm]
    cases A.create (c.dim n) (.given i) (some x) <;> rfl
  unfold getC
  rw [hr, hs, ho.st]
  cases hv : c.stV p with
  | none => simpa [fresh?] using hmake
  | some v =>
    dsimp only
    by_cases hd : A.rows v = c.dim n
    · rw [if_pos (by simpa [fresh?] using hd)]
      obtain ⟨d, y, hy, hc⟩ := ho.made v hv
      refine ⟨y, hy, ?_⟩
      rw [← hd, hA _ _ _ _ hc, hc]
    · rw [if_neg (by simpa [fresh?] using hd)]
      exact hmake

/-! ### Commands -/

theorem issGet_core (h : Heap M I X) (s : Nat) : (issGet h s).2.core = h.core ∧ (∀ x, system (issGet h s).2 x = system h x) ∧
    (issGet h s).2.owner = h.owner := by
  obtain ⟨-, f, h2, h3⟩ := issGet_spec h s
  rw [h2]
  exact ⟨rfl, h3, rfl⟩

/-- What `setSim` and `setPro` do to everything but the simulation they are used on. -/
theorem set_frame (A : Alg M I X) (h : Heap M I X) (s : Nat) (i : I) (g : Heap M I X) (hg : g = (setSim A h s i).2 ∨ g = (setPro A h s i).2) :
    g.tb = h.tb ∧ g.dim = h.dim ∧ (∀ x, system g x = system h x) ∧ g.owner = h.owner ∧ (∀ x, g.stB x = h.stB x ∨ (x = s ∧ g.stB x = .broken)) ∧
    (∀ x, g.inB x = h.inB x ∨ (x = s ∧ g.inB x = .broken)) ∧ (∀ x, x ≠ s → g.stV x = h.stV x ∧ g.inV x = h.inV x ∧ g.mx x = h.mx x) := by
  have base : ∀ x0 : X, let h1 : Heap M I X := { h with mx := upd h.mx s (some x0), inV := upd h.inV s (some i), inB := upd h.inB s .broken }
      (∀ x, h1.inB x = h.inB x ∨ (x = s ∧ h1.inB x = .broken)) ∧ (∀ x, x ≠ s → h1.stV x = h.stV x ∧ h1.inV x = h.inV x ∧ h1.mx x = h.mx x) := by
    intro x0
    constructor
    · intro x
      by_cases hx : x = s
      · exact .inr ⟨hx, by simp [upd, hx]⟩
      · left; simp [upd, hx]
    · intro x hx; simp [upd, hx]
  have hset : ∀ (h1 : Heap M I X) (r : Option M), (∀ x, (setV h1 s r).stB x = h1.stB x ∨ (x = s ∧ (setV h1 s r).stB x = .broken)) ∧
      ∀ x, x ≠ s → (setV h1 s r).stV x = h1.stV x := by
    intro h1 r
    constructor
    · intro x
      by_cases hx : x = s
      · exact .inr ⟨hx, by simp [setV, upd, hx]⟩
      · left; simp [setV, upd, hx]
    · intro x hx; simp [setV, upd, hx]
  have htriv : h.tb = h.tb ∧ h.dim = h.dim ∧ (∀ x, system h x = system h x) ∧ h.owner = h.owner ∧
    (∀ x, h.stB x = h.stB x ∨ (x = s ∧ h.stB x = .broken)) ∧ (∀ x, h.inB x = h.inB x ∨ (x = s ∧ h.inB x = .broken)) ∧
    (∀ x, x ≠ s → h.stV x = h.stV x ∧ h.inV x = h.inV x ∧ h.mx x = h.mx x) :=
    ⟨rfl, rfl, fun _ => rfl, rfl, fun _ => .inl rfl, fun _ => .inl rfl, fun _ _ => ⟨rfl, rfl, rfl⟩⟩
  rcases hg with rfl | rfl
  · simp only [setSim, setInput]
    cases hm : A.maxOf i with
    | error e => exact htriv
    | ok x0 =>
      dsimp only
      obtain ⟨b1, b2⟩ := base x0
      obtain ⟨-, f, e2, e3⟩ := issGet_spec { h with mx := upd h.mx s (some x0), inV := upd h.inV s (some i), inB := upd h.inB s .broken } s
      generalize issGet { h with mx := upd h.mx s (some x0), inV := upd h.inV s (some i), inB := upd h.inB s .broken } s = g at e2
      obtain ⟨r, g⟩ := g
      dsimp only at e2
      subst e2
      cases r with
      | error e => exact ⟨rfl, rfl, e3, rfl, fun _ => .inl rfl, b1, b2⟩
      | ok n =>
        dsimp only
        cases A.create (h.dim n) (.given i) (some x0) with
        | error e => exact ⟨rfl, rfl, e3, rfl, fun _ => .inl rfl, b1, b2⟩
        | ok r =>
          obtain ⟨s1, s2⟩ := hset { h with mx := upd h.mx s (some x0), inV := upd h.inV s (some i), inB := upd h.inB s .broken, iss := f } r
          exact ⟨rfl, rfl, e3, rfl, s1, b1, fun x hx => ⟨s2 x hx, (b2 x hx).2⟩⟩
  · simp only [setPro, setInput]
    cases hm : A.maxOf i with
    | error e => exact htriv
    | ok x0 =>
      dsimp only
      obtain ⟨b1, b2⟩ := base x0
      have plain : ({ h with mx := upd h.mx s (some x0), inV := upd h.inV s (some i), inB := upd h.inB s .broken } : Heap M I X).tb = h.tb ∧ _ ∧ _ ∧ _ ∧ _ ∧ _ ∧ _ :=
        ⟨rfl, (rfl : h.dim = h.dim), (fun _ => rfl : ∀ x, system { h with mx := upd h.mx s (some x0), inV := upd h.inV s (some i), inB := upd h.inB s .broken } x = system h x),
          (rfl : h.owner = h.owner), (fun _ => .inl rfl : ∀ x, h.stB x = h.stB x ∨ (x = s ∧ h.stB x = .broken)), b1, b2⟩
      cases h.owner s with
      | none => exact plain
      | system => exact plain
      | protocol o =>
        cases o with
        | none => exact plain
        | some n =>
          dsimp only
          cases A.create (h.dim n) (.given i) (some A.one) with
          | error e => exact plain
          | ok r =>
            obtain ⟨s1, s2⟩ := hset { h with mx := upd h.mx s (some x0), inV := upd h.inV s (some i), inB := upd h.inB s .broken } r
            exact ⟨rfl, rfl, fun _ => rfl, rfl, s1, b1, fun x hx => ⟨s2 x hx, (b2 x hx).2⟩⟩

/-- What `_bound` does. -/
theorem bind_frame (lim : Nat) (h : Heap M I X) (c p : Nat) (re detach : Bool) :
    (bind lim h c p re detach).2.stV = h.stV ∧ (bind lim h c p re detach).2.inV = h.inV ∧ (bind lim h c p re detach).2.mx = h.mx ∧
    (bind lim h c p re detach).2.dim = h.dim ∧ (bind lim h c p re detach).2.iss = h.iss ∧ (bind lim h c p re detach).2.owner = h.owner ∧
    (∀ x, (bind lim h c p re detach).2.tb x = h.tb x ∨ (x = c ∧ ∀ t, (bind lim h c p re detach).2.tb x = some t → t = p)) ∧
    (∀ x, (bind lim h c p re detach).2.stB x = h.stB x ∨ (x = c ∧ (bind lim h c p re detach).2.stB x = .to p ∧ (h.stB x = .none ∨ re = true))) ∧
    (∀ x, (bind lim h c p re detach).2.inB x = h.inB x ∨ (x = c ∧ (bind lim h c p re detach).2.inB x = .to p ∧ (h.inB x = .none ∨ re = true))) := by
  unfold bind
  cases boundTree h.tb lim p with
  | none => exact ⟨rfl, rfl, rfl, rfl, rfl, rfl, fun _ => .inl rfl, fun _ => .inl rfl, fun _ => .inl rfl⟩
  | some tree =>
    dsimp only
    by_cases hc : c ∈ tree
    · rw [if_pos hc]
      exact ⟨rfl, rfl, rfl, rfl, rfl, rfl, fun _ => .inl rfl, fun _ => .inl rfl, fun _ => .inl rfl⟩
    · rw [if_neg hc]
      refine ⟨rfl, rfl, rfl, rfl, rfl, rfl, fun x => ?_, fun x => ?_, fun x => ?_⟩
      · by_cases hx : x = c
        · refine .inr ⟨hx, fun t ht => ?_⟩
          subst hx
          simp only [upd, if_true] at ht
          cases detach
          · simpa using ht.symm
          · simp at ht
        · left; simp [upd, hx]
      · by_cases hb : h.stB c = .none ∨ re = true
        · simp only [if_pos hb]
          by_cases hx : x = c
          · subst hx; exact .inr ⟨rfl, by simp [upd], hb⟩
          · left; simp [upd, hx]
        · simp only [if_neg hb]; left; trivial
      · by_cases hb : h.inB c = .none ∨ re = true
        · simp only [if_pos hb]
          by_cases hx : x = c
          · subst hx; exact .inr ⟨rfl, by simp [upd], hb⟩
          · left; simp [upd, hx]
        · simp only [if_neg hb]; left; trivial

theorem get_frame (A : Alg M I X) (L lim : Nat) (h : Heap M I X) (s : Nat) :
    (get A L lim h s).2.tb = h.tb ∧ (get A L lim h s).2.inV = h.inV ∧ (get A L lim h s).2.inB = h.inB ∧ (get A L lim h s).2.dim = h.dim ∧
    (∀ x, system (get A L lim h s).2 x = system h x) ∧
    ∀ x, (get A L lim h s).2.stB x = h.stB x ∨ ((get A L lim h s).2.stB x = .broken ∧ ∀ t, h.stB x ≠ .to t) := by
  obtain ⟨-, h2, h3, -⟩ := get_core A L lim h s
  obtain ⟨f1, f2, f3, -, f5, f6⟩ := getC_frame A (system h) L lim h.core s
  rw [← h2] at f1 f2 f3 f5 f6
  exact ⟨f1, f2, f3, f5, h3, f6⟩

theorem Ranked.bind {rank : Nat → Nat} {lim : Nat} {h : Heap M I X} (H : Ranked rank h) {c p : Nat} (re detach : Bool) (d : rank p < rank c) :
    Ranked rank (StateBound.bind lim h c p re detach).2 := by
  obtain ⟨-, -, -, -, -, -, b1, b2, b3⟩ := bind_frame lim h c p re detach
  refine ⟨fun s t ht => ?_, fun s t ht => ?_, fun s t ht => ?_⟩
  · rcases b1 s with e | ⟨rfl, e⟩
    · exact H.tb s t (by rw [← e]; exact ht)
    · rw [e t ht]; exact d
  · rcases b2 s with e | ⟨rfl, e, -⟩
    · exact H.st s t (by rw [← e]; exact ht)
    · rw [e] at ht; cases ht; exact d
  · rcases b3 s with e | ⟨rfl, e, -⟩
    · exact H.inp s t (by rw [← e]; exact ht)
    · rw [e] at ht; cases ht; exact d

theorem Ranked.exec {rank : Nat → Nat} {A : Alg M I X} {lim : Nat} {h : Heap M I X} (H : Ranked rank h) (cmd : Cmd I) (d : Down rank cmd) :
    Ranked rank (StateBound.exec A lim h cmd) := by
  have hset : ∀ s i (g : Heap M I X), (g = (StateBound.setSim A h s i).2 ∨ g = (StateBound.setPro A h s i).2) → Ranked rank g := by
    intro s i g hg
    obtain ⟨f1, -, -, -, f5, f6, -⟩ := set_frame A h s i g hg
    refine ⟨fun x t ht => H.tb x t (by rw [← f1]; exact ht), fun x t ht => ?_, fun x t ht => ?_⟩
    · rcases f5 x with e | ⟨-, e⟩
      · exact H.st x t (by rw [← e]; exact ht)
      · rw [e] at ht; cases ht
    · rcases f6 x with e | ⟨-, e⟩
      · exact H.inp x t (by rw [← e]; exact ht)
      · rw [e] at ht; cases ht
  cases cmd with
  | setSim s i => exact hset s i _ (.inl rfl)
  | setPro s i => exact hset s i _ (.inr rfl)
  | setDim n d => exact ⟨H.tb, H.st, H.inp⟩
  | time s =>
    refine ⟨fun x t ht => ?_, H.st, H.inp⟩
    simp only [StateBound.exec, upd] at ht
    split at ht
    · cases ht
    · exact H.tb x t ht
  | part s =>
    refine ⟨H.tb, fun x t ht => ?_, H.inp⟩
    simp only [StateBound.exec, setV, upd] at ht
    split at ht
    · cases ht
    · exact H.st x t ht
  | bind c p re detach => exact H.bind re detach d
  | move s n detach =>
    have H' : Ranked rank { h with owner := upd h.owner s (.protocol (some n)) } := ⟨H.tb, H.st, H.inp⟩
    simp only [StateBound.exec]
    cases h.tb s with
    | none => exact H'.bind false detach d
    | some t => exact H'
  | setIss s n => exact ⟨H.tb, H.st, H.inp⟩
  | read s =>
    obtain ⟨f1, -, f3, -, -, f6⟩ := get_frame A lim lim h s
    refine ⟨fun x t ht => H.tb x t (by rw [← f1]; exact ht), fun x t ht => ?_, fun x t ht => H.inp x t (by rw [← f3]; exact ht)⟩
    rcases f6 x with e | ⟨e, -⟩
    · exact H.st x t (by rw [← e]; exact ht)
    · have ht : (get A lim lim h s).2.stB x = .to t := ht
      rw [e] at ht; cases ht

theorem Ranked.run {rank : Nat → Nat} {A : Alg M I X} {lim : Nat} (l : List (Cmd I)) {h : Heap M I X} (H : Ranked rank h)
    (d : ∀ cmd ∈ l, Down rank cmd) : Ranked rank (StateBound.run A lim l h) := by
  induction l generalizing h with
  | nil => exact H
  | cons c l ih => exact ih (H.exec c (d c List.mem_cons_self)) fun x hx => d x (List.mem_cons_of_mem _ hx)

theorem Ranked.fresh (rank : Nat → Nat) (owner : Nat → Owner) (dim : Nat → Nat) : Ranked rank (fresh owner dim : Heap M I X) :=
  ⟨fun _ _ h => (by cases h), fun _ _ h => (by cases h), fun _ _ h => (by cases h)⟩

end Verif.StateBound
