import Verif.Tree.Ham

/-!
# The older system classes (`classes/QSys.py`): `qSystem`, `compQSystem`, `term`, `qCoupling`

The classes are exported next to the newer `QuantumSystem` (`classes/__init__.py`) and carry their own construction of
Hamiltonians, their own bookkeeping of dimensions, and their own couplings.  The structure of the systems is the tree of
`Verif.Tree.Model` (`some true` a `compQSystem`, `some false` a `qSystem`); the setters of `_dimsBefore` and `_dimsAfter`
(`QSys.py:231-258`) and `__addSub` (`QSys.py:474-491`) are word for word those modelled there (`setBefore`, `setAfter`,
`addLoop`, `addSub`).  Simplifications: as in `Verif.Tree.Model` and `Verif.Tree.Ham`; the dimension of a composite is computed,
not cached, except in `cachedDim`; matrices are computed, not cached.
-/
namespace Verif.Old
open Verif.Tree Verif.Tree.Sys Verif.NMat

/-! ### Hamiltonians -/

/-- A `term` of a `qSystem` (`QSys.py:645-675`): operator, power, frequency.  As in `Verif.Tree.Ham` an operator is a function of
the dimension of the system. -/
structure OldTerm where
  oper : ℕ → Mat
  order : ℕ
  freq : ℂ

/-- `term._constructMatrices` (`QSys.py:803-832`): the embedded operator, raised to a power afterwards. -/
def termFree (q : Sys) (oper : ℕ → Mat) (order : ℕ) : Option Mat :=
  match compositeOp (oper q.dimension) q.before q.after with
  | none => none
  | some A => matPower A order

/-- One value of the dictionary of a `qCoupling`: the tuple `(systems, operators)`, the systems given by their paths. -/
abbrev Entry := List (List ℕ) × List (ℕ → Mat)

/-- A `qCoupling` (`QSys.py:1122-1148`). -/
structure Coup where
  strength : ℂ
  entries : List Entry

/-- `ind` (`QSys.py:209-220`) of the system at a path: the index in its composite plus `ind` of that composite. -/
def ind (p : List ℕ) : ℕ := p.sum

/-- The body of the inner loop of `qCoupling._constructMatrices` (`QSys.py:1198-1211`); `none` for an index out of range. -/
def coupPart (root : Sys) (e : Entry) (indx : ℕ) : Option (ℕ × Mat) :=
  match e.1[indx]?, e.2[indx]? with
  | some p, some oper =>
    match sysAt root p with
    | none => none
    | some q =>
      match compositeOp (oper q.dimension) q.before q.after with
      | none => none
      | some A => some (ind p, A)
  | _, _ => none

/-- The inner loop over the given indices. -/
def coupParts (root : Sys) (e : Entry) : List ℕ → Option (List (ℕ × Mat))
  | [] => some []
  | i :: r =>
    match coupPart root e i, coupParts root e r with
    | some x, some l => some (x :: l)
    | _, _ => none

/-- `oper = oper @ qts[ops+1][1]` (`QSys.py:1185-1186`). -/
def foldMul (A : Mat) : List Mat → Option Mat
  | [] => some A
  | B :: r => match matmul A B with | none => none | some C => foldMul C r

/-- `__coupOrdering` (`QSys.py:1178-1187`): sort by `ind` (stable), multiply from left to right. -/
def coupOrdering (qts : List (ℕ × Mat)) : Option Mat :=
  match qts.insertionSort (fun x y => x.1 ≤ y.1) with
  | [] => none
  | x :: r => foldMul x.2 (r.map Prod.snd)

/-- One round of the outer loop of `_constructMatrices` (`QSys.py:1195-1212`).  The inner loop runs over
`range(len(list(subSys.values())[ind]))`, and a value is the *pair* of systems and operators: its length is two. -/
def entryMat (root : Sys) (e : Entry) : Option Mat :=
  match coupParts root e (List.range 2) with
  | none => none
  | some qts => coupOrdering qts

/-- `sum(cMats)` (`QSys.py:1213`). -/
def entrySum (root : Sys) : List Entry → Val → Option Val
  | [], acc => some acc
  | e :: r, acc =>
    match entryMat root e with
    | none => none
    | some A => match addV acc (.mat A) with | none => none | some acc' => entrySum root r acc'

/-- A number times a value. -/
def smulV (c : ℂ) : Val → Val
  | .zero => .zero
  | .mat A => .mat (NMat.smul c A)

/-- `qCoupling.totalHam` (`QSys.py:725-730`): `frequency * freeMat`. -/
def coupHam (root : Sys) (c : Coup) : Option Val :=
  match entrySum root c.entries .zero with
  | none => none
  | some v => some (smulV c.strength v)

/-- `couplingHam` (`QSys.py:437-442`). -/
def coupSum (root : Sys) : List Coup → Val → Option Val
  | [], acc => some acc
  | c :: r, acc =>
    match coupHam root c with
    | none => none
    | some v => match addV acc v with | none => none | some acc' => coupSum root r acc'

/-- `qSystem.totalHam` (`QSys.py:893-902`). -/
def ownSum (q : Sys) : List OldTerm → Val → Option Val
  | [], acc => some acc
  | t :: r, acc =>
    match termFree q t.oper t.order with
    | none => none
    | some A => match addV acc (.mat (NMat.smul t.freq A)) with | none => none | some acc' => ownSum q r acc'

mutual
/-- `totalHam` of the system at path `p` (`QSys.py:419-435, 893-902`): `freeHam + couplingHam` of a composite, the sum of the terms
of a single system.  `T` and `K` give the terms of the single systems and the couplings of the composites. -/
def hamOld (root : Sys) (T : List ℕ → List OldTerm) (K : List ℕ → List Coup) (p : List ℕ) : Sys → Option Val
  | node k d b a s =>
    if k = some true then
      match hamOldSubs root T K p 0 s .zero with
      | none => none
      | some x => match coupSum root (K p) .zero with | none => none | some y => addV x y
    else ownSum (node k d b a s) (T p) .zero
/-- `freeHam` (`QSys.py:419-424`). -/
def hamOldSubs (root : Sys) (T : List ℕ → List OldTerm) (K : List ℕ → List Coup) (p : List ℕ) (i : ℕ) : List Sys → Val → Option Val
  | [], acc => some acc
  | q :: r, acc =>
    match hamOld root T K (p ++ [i]) q with
    | none => none
    | some h => match addV acc h with | none => none | some acc' => hamOldSubs root T K p (i + 1) r acc'
end

/-! ### The dictionary of a coupling -/

/-- The dictionary of a `qCoupling`: keys `str(0)`, `str(1)`, ... with values `(systems, operators)`. -/
abbrev Dict (S O : Type) := List (ℕ × (List S × List O))

/-- Assignment to a key (`dict.__setitem__`): in place for a present key, else at the end. -/
def put {S O : Type} (d : Dict S O) (k : ℕ) (v : List S × List O) : Dict S O :=
  if d.any (fun x => x.1 == k) then d.map (fun x => if x.1 = k then (k, v) else x) else d ++ [(k, v)]

/-- An argument of `addTerm`: a list of systems, or a list of operators (callables). -/
inductive CArg (S O : Type) where
  | systems (l : List S)
  | opers (l : List O)

/-- How a call ends: normally, with an exception, or not within the given number of rounds; always with the dictionary as left. -/
inductive Out (D : Type) where
  | done (d : D)
  | raised (d : D)
  | running

variable {S O : Type}

/-- `__addTerm` (`QSys.py:1217-1227`), called with `ind = 1` and non-empty arguments: as long as the next argument has a callable at
index 1 it is a further term for the same systems.  Returns the remaining arguments; the flag tells an `IndexError`. -/
def addMore (sys : List S) : List (CArg S O) → Dict S O → Bool × List (CArg S O) × Dict S O
  | [], d => (true, [], d)
  | .systems l :: r, d => (decide (2 ≤ l.length), .systems l :: r, d)
  | .opers l :: r, d => if 2 ≤ l.length then addMore sys r (put d d.length (sys, l)) else (false, .opers l :: r, d)

/-- The `while` loop of `addTerm` (`QSys.py:1229-1253`); `single` tells whether a system is a `qSystem`.  Operators where systems are
expected raise (`getByNameOrAlias`), a composite in first place ends the loop silently. -/
def addTerm (single : S → Bool) : ℕ → List (CArg S O) → Dict S O → Out (Dict S O)
  | 0, _, _ => .running
  | _ + 1, [], d => .done d
  | _ + 1, .opers _ :: _, d => .raised d
  | _ + 1, .systems [] :: _, d => .raised d
  | n + 1, .systems (s :: l) :: r, d =>
    if single s then
      match r with
      | [] => .raised d
      | .opers o :: r' =>
        if 2 ≤ o.length then
          match addMore (s :: l) r' (put d d.length (s :: l, o)) with
          | (true, r'', d') => addTerm single n r'' d'
          | (false, _, d') => .raised d'
        else .raised d
      | .systems l' :: _ =>
        if 2 ≤ l'.length then
          match addMore (s :: l) (.systems (s :: l) :: r) d with
          | (true, r'', d') => addTerm single n r'' d'
          | (false, _, d') => .raised d'
        else .raised d
    else .done d

/-- The loop of `qCoupling._removeSubSysExc` (`QSys.py:1262-1271`) from position `i` on.  It pops from the dictionary it iterates over: a
key that is not there raises `KeyError`, and after a pop the next step of the iteration raises `RuntimeError` (the size of the
dictionary changed), also behind the last entry. -/
def removeFrom [DecidableEq S] (sys : S) (d : Dict S O) : ℕ → Dict S O → Out (Dict S O)
  | _, [] => .done d
  | i, v :: r =>
    if sys ∈ v.2.1 then
      if d.any (fun x => x.1 == i) then .raised (d.filter fun x => x.1 ≠ i) else .raised d
    else removeFrom sys d (i + 1) r

/-- `qCoupling._removeSubSysExc`. -/
def removeCoupled [DecidableEq S] (sys : S) (d : Dict S O) : Out (Dict S O) := removeFrom sys d 0 d

/-- The first loop of `compQSystem._removeSubSysExc` (`QSys.py:500-505`) over the couplings of the composite. -/
def removeCouplings [DecidableEq S] (sys : S) : List (Dict S O) → Out (List (Dict S O))
  | [] => .done []
  | c :: r =>
    match removeCoupled sys c with
    | .raised c' => .raised (c' :: r)
    | .running => .running
    | .done c' =>
      match removeCouplings sys r with
      | .raised r' => .raised (c' :: r')
      | .running => .running
      | .done r' => .done (if c'.isEmpty then r' else c' :: r')

/-- `qCoupling.copy` (`QSys.py:674-679`, `base.py:700-708`): a new coupling of the same class with the same strength (and operator and
order, not used by a coupling); the dictionary is not copied. -/
def copyCoup (c : Coup) : Coup := ⟨c.strength, []⟩

/-! ### Dimensions -/

/-- `updateDimension` (`QSys.py:595-643`) of a composite that contains the changed system only indirectly, seen from the composite: `i`
is the index of its sub-system on the way, `m` the difference between `ind` of the composite directly containing the changed system
and its own.  With something before or after it the composite rescales what is after *itself*; else it adjusts its other
sub-systems, comparing their `ind` with that of the composite directly containing the changed system. -/
def updateAbove (i m new old : ℕ) : Sys → Sys
  | node k d b a s =>
    if a ≠ 1 ∨ b ≠ 1 then
      if 0 < m then setAfter (a * new / old) (node k d b a s) else node k d b a s
    else node k d b a (s.mapIdx fun j q =>
      if j = i then q
      else if j < m then setAfter (q.after * new / old) q
      else if m < j then setBefore (q.before * new / old) q
      else q)

/-- The `dimension` setter of a `qSystem` (`QSys.py:871-891`) at a path, with the `updateDimension` calls of all composites containing
it, innermost first.  `none`: no such system, not a single system, or a division by zero.  Returns the old dimension, too. -/
def setDimOld (new : ℕ) : List ℕ → Sys → Option (Sys × ℕ)
  | [], node k d b a s => if k = some true then none else some (node k new b a s, d)
  | i :: p, node k d b a s =>
    match s[i]? with
    | none => none
    | some q =>
      match setDimOld new p q with
      | none => none
      | some (q', old) =>
        if old = 0 then none
        else if p = [] then some (node k d b a (updateDim i new old (s.set i q')), old)
        else some (updateAbove i (ind (i :: p).dropLast) new old (node k d b a (s.set i q')), old)

/-- Division of what is after (before) the sub-systems in front of (behind) position `i` (`QSys.py:506-512`). -/
def divideOut (i x : ℕ) (s : List Sys) : List Sys :=
  s.mapIdx fun j q => if j < i then setAfter (q.after / x) q else if i < j then setBefore (q.before / x) q else q

/-- `removeSubSys` (`QSys.py:493-539`) of a direct sub-system of an outermost composite: the rest and the removed system. -/
def removeTop (i : ℕ) : Sys → Option (Sys × Sys)
  | node k d b a s =>
    match s[i]? with
    | none => none
    | some q =>
      if k = some true ∧ q.dimension ≠ 0 then some (node k d b a ((divideOut i q.dimension s).eraseIdx i), setBefore 1 (setAfter 1 q))
      else none

/-- What the removal of a system of dimension `x` from the composite at position `i` of an outermost composite does to the sub-system at
position `j` of the outermost composite (`QSys.py:519-529, 1000-1013`): a composite divides, a single system does nothing.  Exact when
the composites in the outermost one contain single systems only: a composite further inside would divide once more. -/
def visit (i x j : ℕ) : Sys → Sys
  | node k d b a s =>
    if k = some true ∧ (a ≠ 1 ∨ b ≠ 1) then
      if j < i then setAfter (a / x) (node k d b a s)
      else if i < j then setBefore (b / x) (node k d b a s)
      else node k d b a s
    else node k d b a s

/-- `removeSubSys` (`QSys.py:493-539`) of the sub-system at position `j` of the composite at position `i` of an outermost composite. -/
def removeInner (i j : ℕ) : Sys → Option (Sys × Sys)
  | node k d b a s =>
    match s[i]? with
    | none => none
    | some c =>
      match c.subs[j]?, removeTop j c with
      | some q, some (c', r) => some (node k d b a ((s.set i c').mapIdx fun n y => if n = i then y else visit i q.dimension n y), r)
      | _, _ => none

/-- The `dimension` getter of a composite with its cache (`QSys.py:260-273`): the cached value, or the product, which is stored.
Of all composites containing a system only the direct one forgets its cache when a sub-system is added (`QSys.py:490`). -/
def cachedDim (cache : Option ℕ) (s : Sys) : ℕ := cache.getD s.dimension

end Verif.Old
