import Verif.Names.Lookup

/-!
# The result object of an object and its aliases (C103)

Objects with results (`computeBase`) have a `qResults` object, which is found under the names of the object with `"Results"`
appended.  The dictionary `subSys` of `World` stands for `qResults._allResults` here.
-/
namespace Verif.Names.Res

/-- What is assigned to `alias`. -/
inductive AArg
  | str (s : String)
  | list (l : List AArg)
  | tuple (l : List AArg)

mutual
/-- The strings that `_recurseIfList` (`base.py:53-72`) goes through. -/
def AArg.leaves : AArg → List String
  | .str s => [s]
  | .list l => leavesL l
  | .tuple l => leavesL l
/-- The strings of the elements. -/
def leavesL : List AArg → List String
  | [] => []
  | a :: rest => a.leaves ++ leavesL rest
end

/-- `isinstance(a, str)`. -/
def AArg.str? : AArg → Option String
  | .str s => some s
  | _ => none

/-- What `computeBase.alias` assigns to the alias of the result object (`baseClasses.py:309-312`): nothing if the argument is neither a
string nor a list; only the elements that are strings. -/
def forResults : AArg → List String
  | .str s => [s ++ "Results"]
  | .list l => l.filterMap fun a => a.str?.map (· ++ "Results")
  | .tuple _ => []

/-- `named.alias = ...` for several strings (`base.py:438-447`): stops at the first that is refused; `false`: `ValueError`. -/
def giveAll (w : World) (o : Nat) : List String → Bool × World
  | [] => (true, w)
  | s :: rest => match setAlias w o s with
    | none => (false, w)
    | some w' => giveAll w' o rest

/-- The setter of `computeBase.alias` (`baseClasses.py:303-312`) if the object has the result object `r`, else the one of
`named.alias`. -/
def assignAlias (w : World) (o : Nat) (r : Option Nat) (a : AArg) : Bool × World :=
  match giveAll w o a.leaves with
  | (false, w') => (false, w')
  | (true, w') => match r with
    | none => (true, w')
    | some r => giveAll w' r (forResults a)

/-- Names, and which object has which result object (`qRes`). -/
structure CW where
  w : World
  res : List (Nat × Nat)

/-- `o.qRes`. -/
def qRes (c : CW) (o : Nat) : Option Nat := (c.res.find? fun p => p.1 == o).map Prod.snd

/-- `computeBase.__init__` (`baseClasses.py:253-257`) with `qResults.__init__` (`QRes.py:213-219`): the object, its result object
(class `R`), the entry in the dictionary of results, and the alias.  If the alias is refused the constructor raises and there is no object
for the user, but the names are used up. -/
def createBase (T : List Cls) (R : Nat) (c : CW) (cls : Nat) (internal : Bool) : Bool × CW :=
  let o := c.w.objs.length
  let w := addSubSys (create T (create T c.w cls internal) R true) (o + 1)
  match setAlias w (o + 1) ((envOf w.objs o).name.getD "" ++ "Results") with
  | none => (false, ⟨w, c.res⟩)
  | some w' => (true, ⟨w', c.res ++ [(o, o + 1)]⟩)

/-- Statements: creating an object without and with results, and assigning aliases. -/
inductive CCmd
  | plain (cls : Nat) (internal : Bool)
  | base (cls : Nat) (internal : Bool)
  | alias (o : Nat) (a : AArg)

/-- Execute a statement; `false`: an exception. -/
def stepC (T : List Cls) (R : Nat) (c : CW) : CCmd → Bool × CW
  | .plain cls i => (true, ⟨create T c.w cls i, c.res⟩)
  | .base cls i => createBase T R c cls i
  | .alias o a => if o < c.w.objs.length then
      let x := assignAlias c.w o (qRes c o) a
      (x.1, ⟨x.2, c.res⟩)
    else (false, c)

/-- Execute a program, going on after exceptions: the exceptions and the final state. -/
def runC (T : List Cls) (R : Nat) (c : CW) : List CCmd → List Bool × CW
  | [] => ([], c)
  | cmd :: rest =>
    let x := stepC T R c cmd
    let y := runC T R x.2 rest
    (x.1 :: y.1, y.2)

/-- The start. -/
def startC (T : List Cls) : CW := ⟨emptyWorld T, []⟩

/-- Only strings and lists of strings are assigned. -/
def CCmd.flat : CCmd → Prop
  | .alias _ (.list l) => ∀ a ∈ l, ∃ s, a = .str s
  | .alias _ (.tuple _) => False
  | _ => True

/-- Only classes of the table are used. -/
def CCmd.valid (T : List Cls) : CCmd → Prop
  | .plain c _ => c < T.length
  | .base c _ => c < T.length
  | .alias _ _ => True

theorem forResults_flat {o : Nat} {a : AArg} (h : (CCmd.alias o a).flat) : forResults a = a.leaves.map (· ++ "Results") := by
  cases a with
  | str s => rfl
  | tuple l => exact absurd h (by simp [CCmd.flat])
  | list l =>
    simp only [CCmd.flat] at h
    simp only [forResults, AArg.leaves]
    induction l with
    | nil => rfl
    | cons a l ih =>
      obtain ⟨s, rfl⟩ := h a (by simp)
      rw [leavesL, List.filterMap_cons, ih fun x hx => h x (by simp [hx])]
      simp [AArg.str?, AArg.leaves]

/-! ## The effect of accepted aliases -/

variable {T : List Cls}

/-- Executing operations of the model of the registry. -/
def ex (T : List Cls) (w : World) (ops : List Op) : World := ops.foldl (fun (w : World) (op : Op) => stepW T w op) w

theorem ex_grows (ops : List Op) : ∀ w, Grows w (ex T w ops) := by
  induction ops with
  | nil => intro w; exact grows_refl w
  | cons op ops ih =>
    intro w o a ha
    obtain ⟨b, hb, h1, h2⟩ := step_grows (T := T) w op o a ha
    obtain ⟨b', hb', h3, h4⟩ := ih (stepW T w op) o b hb
    exact ⟨b', hb', h3.trans h1, fun s hs => h4 s (h2 s hs)⟩

/-- Accepted aliases: the object has them in addition, in order; nothing else changes. -/
theorem giveAll_ok (l : List String) : ∀ (w w' : World) (o : Nat), o < w.objs.length → giveAll w o l = (true, w') →
    w' = ex T w (l.map (Op.giveAlias o)) ∧ w'.objs.length = w.objs.length ∧ w'.subSys = w.subSys ∧
    (∀ x a, w.objs[x]? = some a → w'.objs[x]? = some (if x = o then ⟨a.name, a.alias ++ l⟩ else a)) := by
  induction l with
  | nil =>
    intro w w' o _ h
    simp only [giveAll, Prod.mk.injEq, true_and] at h
    subst h
    exact ⟨rfl, rfl, rfl, fun x a hx => by rw [hx]; by_cases h : x = o <;> simp [h]⟩
  | cons s l ih =>
    intro w w' o ho h
    simp only [giveAll] at h
    cases hs : setAlias w o s with
    | none => rw [hs] at h; cases h
    | some w1 =>
      rw [hs] at h
      have h : giveAll w1 o l = (true, w') := h
      have e : w1 = { w with objs := w.objs.modify o (AliasObj.addAlias · s) } := by
        unfold setAlias at hs
        by_cases hc : (w.registry.any fun e => keyEq (envOf w.objs) e.1 (.str s) && e.2 != o) = true
        · rw [if_pos hc] at hs; cases hs
        · rw [if_neg hc] at hs; exact (Option.some.inj hs).symm
      have hl : w1.objs.length = w.objs.length := by rw [e]; simp
      obtain ⟨h1, h2, h3, h4⟩ := ih w1 w' o (by omega) h
      refine ⟨?_, by omega, by rw [h3, e], fun x a hx => ?_⟩
      · rw [h1]
        have : stepW T w (.giveAlias o s) = w1 := by simp [stepW, ho, hs]
        simp only [ex, List.map_cons, List.foldl_cons]
        rw [this]
      · have h5 : w1.objs[x]? = some (if x = o then a.addAlias s else a) := by
          rw [e]
          simp only [List.getElem?_modify, hx]
          by_cases hxo : x = o
          · simp [hxo]
          · have : ¬ (o = x) := fun e => hxo e.symm
            simp [hxo, this]
        rw [h4 x _ h5]
        by_cases hxo : x = o
        · simp [hxo, AliasObj.addAlias]
        · simp [hxo]

/-- What holds after statements that all succeeded. -/
structure Inv (T : List Cls) (c : CW) : Prop where
  run : ∃ ops : List Op, (∀ op ∈ ops, op.valid T) ∧ c.w = runW T ops
  lt : ∀ p ∈ c.res, p.1 < c.w.objs.length ∧ p.2 < c.w.objs.length
  nodup : (c.res.map Prod.fst).Nodup
  sep : ∀ p ∈ c.res, ∀ q ∈ c.res, p.1 ≠ q.2
  has : ∀ p ∈ c.res, ∀ a, c.w.objs[p.1]? = some a → ∃ b, c.w.objs[p.2]? = some b ∧
    ∀ m, some m ∈ a.members → m ++ "Results" ∈ b.alias
  stored : NoClash c.w → ∀ p ∈ c.res, Key.ali p.2 ∈ c.w.subSys.map Prod.fst

theorem runW_ex (ops more : List Op) : ex T (runW T ops) more = runW T (ops ++ more) := by
  simp [ex, runW, List.foldl_append]

theorem ok_plain {c : CW} (h : Inv T c) (cls : Nat) (i : Bool) (hc : cls < T.length) : Inv T ⟨create T c.w cls i, c.res⟩ := by
  obtain ⟨ops, hv, hw⟩ := h.run
  have hg : Grows c.w (create T c.w cls i) := step_grows (T := T) c.w (.create cls i)
  have hlen : (create T c.w cls i).objs.length = c.w.objs.length + 1 := by simp [create]
  refine ⟨⟨ops ++ [.create cls i], ?_, by rw [runW_snoc, ← hw]; rfl⟩, fun p hp => ?_, h.nodup, h.sep, fun p hp a ha => ?_, fun hn p hp => ?_⟩
  · intro op hop
    rcases List.mem_append.mp hop with h1 | h1
    · exact hv op h1
    · rw [List.mem_singleton.mp h1]; exact hc
  · have := h.lt p hp
    simp only [hlen]; omega
  · have hl := h.lt p hp
    simp only [create] at ha ⊢
    rw [List.getElem?_append_left hl.1] at ha
    rw [List.getElem?_append_left hl.2]
    exact h.has p hp a ha
  · exact h.stored (noClash_of_grows hg hn) p hp

theorem qRes_some {c : CW} {o r : Nat} (h : qRes c o = some r) : (o, r) ∈ c.res := by
  unfold qRes at h
  rw [Option.map_eq_some_iff] at h
  obtain ⟨p, hp, rfl⟩ := h
  have h1 := List.mem_of_find?_eq_some hp
  have h2 := List.find?_some hp
  simp only [beq_iff_eq] at h2
  rw [← h2]; exact h1

theorem qRes_unique {c : CW} (hn : (c.res.map Prod.fst).Nodup) {p : Nat × Nat} (hp : p ∈ c.res) : qRes c p.1 = some p.2 := by
  unfold qRes
  generalize c.res = l at *
  induction l with
  | nil => cases hp
  | cons x l ih =>
    rw [List.map_cons, List.nodup_cons] at hn
    rw [List.find?_cons]
    rcases List.mem_cons.mp hp with rfl | hm
    · simp
    · have : ¬ (x.1 = p.1) := fun e => hn.1 (e ▸ List.mem_map.mpr ⟨p, hm, rfl⟩)
      simp only [beq_eq_false_iff_ne.mpr this]
      exact ih hn.2 hm

theorem ok_alias {c : CW} (h : Inv T c) (o : Nat) (a : AArg) (hf : (CCmd.alias o a).flat) (ho : o < c.w.objs.length) {w' : World}
    (hok : assignAlias c.w o (qRes c o) a = (true, w')) : Inv T ⟨w', c.res⟩ := by
  obtain ⟨ops, hv, hw⟩ := h.run
  unfold assignAlias at hok
  rcases h1 : giveAll c.w o a.leaves with ⟨b, w1⟩
  rw [h1] at hok
  cases b with
  | false => cases hok
  | true =>
    obtain ⟨e1, l1, s1, g1⟩ := giveAll_ok (T := T) a.leaves c.w w1 o ho h1
    have hfin : ∀ {w2 : World} {more : List Op}, w2 = ex T c.w more → (∀ op ∈ more, op.valid T) → w2.objs.length = c.w.objs.length →
        w2.subSys = c.w.subSys →
        (∀ p ∈ c.res, ∀ x, w2.objs[p.1]? = some x → ∃ y, w2.objs[p.2]? = some y ∧ ∀ m, some m ∈ x.members → m ++ "Results" ∈ y.alias) →
        Inv T ⟨w2, c.res⟩ := by
      intro w2 more he hvm hl hs hh
      refine ⟨⟨ops ++ more, ?_, ?_⟩, fun p hp => ?_, h.nodup, h.sep, hh, fun hn p hp => ?_⟩
      · intro op hop
        rcases List.mem_append.mp hop with h1 | h1
        · exact hv op h1
        · exact hvm op h1
      · rw [← runW_ex, ← hw]; exact he
      · simp only [hl]; exact h.lt p hp
      · simp only [hs]
        refine h.stored (noClash_of_grows ?_ hn) p hp
        rw [show (⟨w2, c.res⟩ : CW).w = w2 from rfl, he]; exact ex_grows more c.w
    cases hq : qRes c o with
    | none =>
      rw [hq] at hok
      simp only [Prod.mk.injEq, true_and] at hok
      subst hok
      refine hfin e1 (by intro op hop; obtain ⟨s, _, rfl⟩ := List.mem_map.mp hop; trivial) l1 s1 fun p hp x hx => ?_
      have hne : p.1 ≠ o := by
        intro e
        have := qRes_unique h.nodup hp
        rw [e, hq] at this; cases this
      have hpl := h.lt p hp
      have h2 := g1 p.1 _ (List.getElem?_eq_getElem hpl.1)
      rw [if_neg hne] at h2
      rw [h2] at hx
      obtain ⟨b, hb, hm⟩ := h.has p hp x (by rw [List.getElem?_eq_getElem hpl.1]; exact hx)
      refine ⟨_, g1 p.2 b hb, fun m hm' => ?_⟩
      by_cases hpo : p.2 = o
      · rw [if_pos hpo]; exact List.mem_append_left _ (hm m hm')
      · rw [if_neg hpo]; exact hm m hm'
    | some r =>
      rw [hq] at hok
      have hok : giveAll w1 r (forResults a) = (true, w') := hok
      have hor := qRes_some hq
      have hrl := (h.lt _ hor).2
      obtain ⟨e2, l2, s2, g2⟩ := giveAll_ok (T := T) (forResults a) w1 w' r (by rw [l1]; exact hrl) hok
      refine hfin (more := a.leaves.map (Op.giveAlias o) ++ (forResults a).map (Op.giveAlias r)) ?_ ?_ (by omega) (by rw [s2, s1])
        fun p hp x hx => ?_
      · rw [e2, e1]; simp [ex, List.foldl_append]
      · intro op hop
        rcases List.mem_append.mp hop with h1 | h1
        · obtain ⟨s, _, rfl⟩ := List.mem_map.mp h1; trivial
        · obtain ⟨s, _, rfl⟩ := List.mem_map.mp h1; trivial
      · have hpl := h.lt p hp
        have ha0 := List.getElem?_eq_getElem hpl.1
        generalize c.w.objs[p.1] = a0 at ha0
        obtain ⟨b, hb, hm⟩ := h.has p hp a0 ha0
        have hpr : p.1 ≠ r := h.sep p hp _ hor
        have hx1 := g2 p.1 _ (g1 p.1 _ ha0)
        rw [if_neg hpr, hx] at hx1
        have hx1 := Option.some.inj hx1
        have hy := g2 p.2 _ (g1 p.2 b hb)
        refine ⟨_, hy, fun m hm' => ?_⟩
        have hbase : ∀ z, z ∈ b.alias → z ∈ (if p.2 = o then (⟨b.name, b.alias ++ a.leaves⟩ : AliasObj) else b).alias := by
          intro z hz
          by_cases hpo : p.2 = o
          · rw [if_pos hpo]; exact List.mem_append_left _ hz
          · rw [if_neg hpo]; exact hz
        by_cases hpo : p.1 = o
        · have hr2 : p.2 = r := by
            have := qRes_unique h.nodup hp
            rw [hpo, hq] at this; exact (Option.some.inj this).symm
          rw [if_pos hpo] at hx1
          rw [if_pos hr2]
          rw [hx1] at hm'
          simp only [AliasObj.members, List.map_append, List.mem_cons, List.mem_append] at hm'
          rcases hm' with h3 | h3 | h3
          · exact List.mem_append_left _ (hbase _ (hm m (by simp [AliasObj.members, h3])))
          · exact List.mem_append_left _ (hbase _ (hm m (by simp only [AliasObj.members, List.mem_cons]; exact Or.inr h3)))
          · refine List.mem_append_right _ ?_
            rw [forResults_flat hf]
            obtain ⟨z, hz, hz2⟩ := List.mem_map.mp h3
            rw [← Option.some.inj hz2]
            exact List.mem_map.mpr ⟨z, hz, rfl⟩
        · rw [if_neg hpo] at hx1
          subst hx1
          have := hbase _ (hm m hm')
          by_cases hr2 : p.2 = r
          · rw [if_pos hr2]; exact List.mem_append_left _ this
          · rw [if_neg hr2]; exact this

theorem rawSet_has {σ : Env} {d : ADict Nat} {k : Key} {v : Nat} : (∃ e ∈ rawSet σ d k v, e.2 = v) ∧
    ∀ k', k' ∈ d.map Prod.fst → k' ∈ (rawSet σ d k v).map Prod.fst := by
  induction d with
  | nil => simp [rawSet]
  | cons e d ih =>
    unfold rawSet
    split
    · exact ⟨⟨_, List.mem_cons_self, rfl⟩, fun k' h => h⟩
    · obtain ⟨⟨x, hx, hv⟩, h2⟩ := ih
      refine ⟨⟨x, by simp [hx], hv⟩, fun k' h => ?_⟩
      simp only [List.map_cons, List.mem_cons] at h ⊢
      rcases h with h | h
      · exact Or.inl h
      · exact Or.inr (h2 k' h)

theorem ok_base (hT : GoodTable T) {R : Nat} (hR : R < T.length) {c c' : CW} (h : Inv T c) (cls : Nat) (i : Bool) (hc : cls < T.length)
    (hok : createBase T R c cls i = (true, c')) : Inv T c' := by
  obtain ⟨ops, hv, hw⟩ := h.run
  unfold createBase at hok
  generalize hw1 : create T (create T c.w cls i) R true = w1 at hok
  have hlen : w1.objs.length = c.w.objs.length + 2 := by rw [← hw1]; simp [create]
  have hget : ∀ x < c.w.objs.length, w1.objs[x]? = c.w.objs[x]? := by
    intro x hx
    rw [← hw1]
    simp only [create]
    rw [List.getElem?_append_left (by simp; omega), List.getElem?_append_left hx]
  have ho : ∃ n, w1.objs[c.w.objs.length]? = some ⟨some n, []⟩ := by
    rw [← hw1]
    simp only [create]
    rw [List.getElem?_append_left (by simp), List.getElem?_append_right (Nat.le_refl _)]
    simp
  have hr : ∃ n, w1.objs[c.w.objs.length + 1]? = some ⟨some n, []⟩ := by
    rw [← hw1]
    simp only [create]
    rw [List.getElem?_append_right (by simp)]
    simp
  obtain ⟨no, ho⟩ := ho
  obtain ⟨nr, hr⟩ := hr
  simp only at hok
  generalize hw2 : addSubSys w1 (c.w.objs.length + 1) = w2 at hok
  have hobj : w2.objs = w1.objs := by rw [← hw2]; rfl
  have hname : (envOf w2.objs c.w.objs.length).name.getD "" = no := by
    rw [hobj]; simp [envOf, ho]
  rw [hname] at hok
  cases hs : setAlias w2 (c.w.objs.length + 1) (no ++ "Results") with
  | none => rw [hs] at hok; cases hok
  | some w3 =>
    rw [hs] at hok
    have hok : (true, (⟨w3, c.res ++ [(c.w.objs.length, c.w.objs.length + 1)]⟩ : CW)) = (true, c') := hok
    have hc' := (Prod.mk.inj hok).2
    have hga : giveAll w2 (c.w.objs.length + 1) [no ++ "Results"] = (true, w3) := by simp [giveAll, hs]
    obtain ⟨e3, l3, s3, g3⟩ := giveAll_ok (T := T) _ w2 w3 (c.w.objs.length + 1) (by rw [hobj, hlen]; omega) hga
    have hw1ops : w1 = runW T (ops ++ [.create cls i, .create R true]) := by
      rw [← runW_ex, ← hw, ← hw1]; rfl
    have hw2ops : w2 = runW T (ops ++ [.create cls i, .create R true, .add (c.w.objs.length + 1)]) := by
      have : ops ++ [.create cls i, .create R true, .add (c.w.objs.length + 1)] =
          (ops ++ [.create cls i, .create R true]) ++ [.add (c.w.objs.length + 1)] := by simp
      rw [this, runW_snoc, ← hw1ops, ← hw2]
      simp only [stepW]
      rw [if_pos (by rw [hlen]; omega)]
    have hw3ops : w3 = runW T (ops ++ [.create cls i, .create R true, .add (c.w.objs.length + 1),
        .giveAlias (c.w.objs.length + 1) (no ++ "Results")]) := by
      have : ops ++ [.create cls i, .create R true, .add (c.w.objs.length + 1), .giveAlias (c.w.objs.length + 1) (no ++ "Results")] =
          (ops ++ [.create cls i, .create R true, .add (c.w.objs.length + 1)]) ++ [.giveAlias (c.w.objs.length + 1) (no ++ "Results")] := by
        simp
      rw [this, ← runW_ex, ← hw2ops, e3]; rfl
    have hv3 : ∀ op ∈ ops ++ [.create cls i, .create R true], op.valid T := by
      intro op hop
      simp only [List.mem_append, List.mem_cons, List.not_mem_nil, or_false] at hop
      rcases hop with h1 | rfl | rfl
      · exact hv op h1
      · exact hc
      · exact hR
    have hl3 : w3.objs.length = c.w.objs.length + 2 := by rw [l3, hobj, hlen]
    subst hc'
    refine ⟨⟨_, ?_, hw3ops⟩, fun p hp => ?_, ?_, fun p hp q hq => ?_, fun p hp a ha => ?_, fun hn p hp => ?_⟩
    · intro op hop
      simp only [List.mem_append, List.mem_cons, List.not_mem_nil, or_false] at hop
      rcases hop with h1 | rfl | rfl | rfl | rfl
      · exact hv op h1
      · exact hc
      · exact hR
      · trivial
      · trivial
    · simp only [hl3]
      rcases List.mem_append.mp hp with h1 | h1
      · have := h.lt p h1; omega
      · rw [List.mem_singleton.mp h1]; simp
    · rw [List.map_append, List.nodup_append]
      refine ⟨h.nodup, by simp, ?_⟩
      intro x hx y hy
      obtain ⟨p, hp, rfl⟩ := List.mem_map.mp hx
      simp only [List.map_cons, List.map_nil, List.mem_singleton] at hy
      have := (h.lt p hp).1
      omega
    · rcases List.mem_append.mp hp with h1 | h1 <;> rcases List.mem_append.mp hq with h2 | h2
      · exact h.sep p h1 q h2
      · rw [List.mem_singleton.mp h2]; have := (h.lt p h1).1; simp only; omega
      · rw [List.mem_singleton.mp h1]; have := (h.lt q h2).2; simp only; omega
      · rw [List.mem_singleton.mp h1, List.mem_singleton.mp h2]; simp
    · simp only at ha ⊢
      rcases List.mem_append.mp hp with h1 | h1
      · have hpl := h.lt p h1
        have e1 := hget p.1 hpl.1
        have e2 := hget p.2 hpl.2
        have ha0 := List.getElem?_eq_getElem hpl.1
        generalize c.w.objs[p.1] = a0 at ha0
        obtain ⟨b, hb, hm⟩ := h.has p h1 a0 ha0
        have g4 := g3 p.1 a0 (by rw [hobj, e1]; exact ha0)
        have g5 := g3 p.2 b (by rw [hobj, e2]; exact hb)
        rw [if_neg (by omega)] at g4 g5
        rw [g4] at ha
        cases ha
        exact ⟨b, g5, hm⟩
      · have hp' := List.mem_singleton.mp h1
        subst hp'
        have g4 := g3 _ _ (by rw [hobj]; exact ho)
        have g5 := g3 _ _ (by rw [hobj]; exact hr)
        rw [if_neg (by omega)] at g4
        rw [if_pos rfl] at g5
        simp only at ha
        rw [g4] at ha
        cases ha
        refine ⟨_, g5, fun m hm => ?_⟩
        simp only [AliasObj.members, List.map_nil, List.mem_singleton, Option.some.injEq] at hm
        simp [hm]
    · simp only [s3] at hn ⊢
      have hn2 : NoClash w2 := by
        refine noClash_of_grows ?_ hn
        rw [e3]; exact ex_grows _ _
      have hn1 : NoClash w1 := by
        refine noClash_of_grows ?_ hn2
        have : w2 = ex T w1 [.add (c.w.objs.length + 1)] := by rw [hw2ops, hw1ops, runW_ex]; simp
        rw [this]; exact ex_grows _ _
      have hn0 : NoClash c.w := by
        refine noClash_of_grows ?_ hn1
        have : w1 = ex T c.w [.create cls i, .create R true] := by rw [hw1ops, hw, runW_ex]
        rw [this]; exact ex_grows _ _
      have hIR : InvR w1 := by
        rw [hw1ops] at hn1 ⊢
        exact run_invR hT _ hv3 hn1
      have hsub : w2.subSys = aset (envOf w1.objs) w1.subSys (.ali (c.w.objs.length + 1)) (c.w.objs.length + 1) := by rw [← hw2]; rfl
      have hsub1 : w1.subSys = c.w.subSys := by rw [← hw1]; rfl
      rcases List.mem_append.mp hp with h1 | h1
      · rw [hsub, hsub1]
        exact rawSet_has.2 _ (h.stored hn0 p h1)
      · have hp' := List.mem_singleton.mp h1
        subst hp'
        have hI2 := addSub_inv hIR (o := c.w.objs.length + 1) (by omega)
        rw [hw2] at hI2
        have : ∃ e ∈ w2.subSys, e.2 = c.w.objs.length + 1 := by rw [hsub]; exact rawSet_has.1
        obtain ⟨e, he, h2⟩ := this
        obtain ⟨x, _, hx⟩ := hI2.sub.1 e he
        have := hI2.subVal e he x hx
        refine List.mem_map.mpr ⟨e, he, ?_⟩
        rw [hx, ← this, h2]

theorem inv_start (T : List Cls) : Inv T (startC T) :=
  ⟨⟨[], by simp, rfl⟩, by simp [startC], by simp [startC], by simp [startC], by simp [startC], by simp [startC]⟩

theorem inv_run (hT : GoodTable T) {R : Nat} (hR : R < T.length) (cmds : List CCmd) :
    ∀ c, Inv T c → (∀ cmd ∈ cmds, cmd.valid T ∧ cmd.flat) → (∀ b ∈ (runC T R c cmds).1, b = true) → Inv T (runC T R c cmds).2 := by
  induction cmds with
  | nil => intro c h _ _; exact h
  | cons cmd rest ih =>
    intro c h hv hb
    simp only [runC] at hb ⊢
    have h1 : (stepC T R c cmd).1 = true := hb _ (by simp)
    refine ih _ ?_ (fun x hx => hv x (by simp [hx])) fun b hb' => hb b (by simp [hb'])
    obtain ⟨hv1, hf1⟩ := hv cmd (by simp)
    cases cmd with
    | plain cls i => exact ok_plain h cls i hv1
    | base cls i => exact ok_base hT hR h cls i hv1 (c' := (createBase T R c cls i).2) (Prod.ext h1 rfl)
    | «alias» o a =>
      simp only [stepC] at h1 ⊢
      by_cases ho : o < c.w.objs.length
      · simp only [ho, if_true] at h1 ⊢
        exact ok_alias h o a hf1 ho (Prod.ext h1 rfl)
      · simp [ho] at h1

/-- **C103** (partial: strings and lists of strings, and no exception) after any program every result object has an alias
`m + "Results"` for each name or alias `m` of its object. -/
theorem C103_aliases_partial (hT : GoodTable T) {R : Nat} (hR : R < T.length) (cmds : List CCmd)
    (hv : ∀ cmd ∈ cmds, cmd.valid T ∧ cmd.flat) (hok : ∀ b ∈ (runC T R (startC T) cmds).1, b = true) :
    let c := (runC T R (startC T) cmds).2
    ∀ o r, qRes c o = some r → ∀ a, c.w.objs[o]? = some a → ∃ b, c.w.objs[r]? = some b ∧
      ∀ m, some m ∈ a.members → m ++ "Results" ∈ b.alias := by
  intro c o r hq a ha
  have h := inv_run hT hR cmds (startC T) (inv_start T) hv hok
  exact h.has (o, r) (qRes_some hq) a ha

/-- **C103** (partial, as before, and without the clash of `C22_hidden`) then looking up `m + "Results"`, by name and in the
dictionary of all results, gives the result object. -/
theorem C103_lookup_partial (hT : GoodTable T) {R : Nat} (hR : R < T.length) (cmds : List CCmd)
    (hv : ∀ cmd ∈ cmds, cmd.valid T ∧ cmd.flat) (hok : ∀ b ∈ (runC T R (startC T) cmds).1, b = true) :
    let c := (runC T R (startC T) cmds).2
    NoClash c.w → ∀ o r, qRes c o = some r → ∀ a m, c.w.objs[o]? = some a → some m ∈ a.members →
      getByNameOrAlias c.w (.str (m ++ "Results")) = some r ∧
      aget (envOf c.w.objs) c.w.subSys (.str (m ++ "Results")) = some r := by
  intro c hn o r hq a m ha hm
  have h := inv_run hT hR cmds (startC T) (inv_start T) hv hok
  obtain ⟨b, hb, hbm⟩ := h.has (o, r) (qRes_some hq) a ha
  have hmem : some (m ++ "Results") ∈ b.members := by
    simp only [AliasObj.members, List.mem_cons, List.mem_map]
    exact Or.inr ⟨_, hbm m hm, rfl⟩
  have hst := h.stored hn (o, r) (qRes_some hq)
  obtain ⟨ops, hvo, hw⟩ := h.run
  have hw' : c.w = runW T ops := hw
  simp only at hb hst
  change c.w.objs[r]? = some b at hb
  change Key.ali r ∈ c.w.subSys.map Prod.fst at hst
  rw [hw'] at hn hb hst ⊢
  refine ⟨?_, ?_⟩
  · exact ((C22_lookup_partial hT ops hvo hn).2.1 _ _).mpr ⟨b, hb, hmem⟩
  · exact ((C21_forms_partial hT ops hvo hn r b hb _ (Or.inr ⟨_, hmem, rfl⟩)).1 hst).1

/-! ## What is false -/

theorem giveAll_others (l : List String) : ∀ (w : World) (o x : Nat), x ≠ o → (giveAll w o l).2.objs[x]? = w.objs[x]? := by
  induction l with
  | nil => intro w o x _; rfl
  | cons s l ih =>
    intro w o x hx
    simp only [giveAll]
    cases hs : setAlias w o s with
    | none => rfl
    | some w1 =>
      rw [show (match some w1 with
        | none => (false, w)
        | some w' => giveAll w' o l) = giveAll w1 o l from rfl, ih w1 o x hx]
      unfold setAlias at hs
      by_cases hc : (w.registry.any fun e => keyEq (envOf w.objs) e.1 (.str s) && e.2 != o) = true
      · rw [if_pos hc] at hs; cases hs
      · rw [if_neg hc] at hs
        cases hs
        have : ¬ (o = x) := fun e => hx e.symm
        simp [this]

/-- **C103** (negation) aliases given as a tuple, or in a list inside a list, are given to the object only: nothing is raised for the
results, and no result object changes. -/
theorem C103_tuple (w : World) (o r : Nat) (hr : r ≠ o) (l : List AArg) :
    assignAlias w o (some r) (.tuple l) = giveAll w o (leavesL l) ∧ assignAlias w o (some r) (.list [.list l]) = giveAll w o (leavesL l) ∧
    (giveAll w o (leavesL l)).2.objs[r]? = w.objs[r]? := by
  have h2 : leavesL [.list l] = leavesL l := by simp [leavesL, AArg.leaves]
  refine ⟨?_, ?_, giveAll_others _ w o r hr⟩
  · simp only [assignAlias, AArg.leaves, forResults]
    rcases giveAll w o (leavesL l) with ⟨b, w'⟩
    cases b <;> rfl
  · simp only [assignAlias, AArg.leaves, h2, forResults]
    rcases giveAll w o (leavesL l) with ⟨b, w'⟩
    cases b <;> rfl

/-- **C103** (negation) if the alias is free and the one with `"Results"` is not, the assignment raises, and the object has the alias. -/
theorem C103_half_done (w w' : World) (o r : Nat) (s : String) (a : AliasObj) (ha : w.objs[o]? = some a)
    (h1 : setAlias w o s = some w') (h2 : setAlias w' r (s ++ "Results") = none) :
    assignAlias w o (some r) (.str s) = (false, w') ∧ w'.objs[o]? = some ⟨a.name, a.alias ++ [s]⟩ := by
  have hg : giveAll w o [s] = (true, w') := by simp [giveAll, h1]
  constructor
  · simp [assignAlias, AArg.leaves, hg, forResults, giveAll, h2]
  · have := (giveAll_ok (T := []) [s] w w' o (List.getElem?_eq_some_iff.mp ha).1 hg).2.2.2 o a ha
    simpa using this

/-- **C103** (negation) if an alias in a list is refused, the ones before it stay with the object, and none is given to the results. -/
theorem C103_list_stops (w : World) (o r : Nat) (hr : r ≠ o) (arg : AArg) (h : (giveAll w o arg.leaves).1 = false) :
    assignAlias w o (some r) arg = (false, (giveAll w o arg.leaves).2) ∧ (assignAlias w o (some r) arg).2.objs[r]? = w.objs[r]? := by
  have e : assignAlias w o (some r) arg = (false, (giveAll w o arg.leaves).2) := by
    unfold assignAlias
    rcases hg : giveAll w o arg.leaves with ⟨b, w'⟩
    rw [hg] at h
    simp only at h
    rw [h]
  exact ⟨e, by rw [e]; exact giveAll_others _ w o r hr⟩

/-- **C103** (negation, witnesses) a cavity with the alias "aResults" and a qubit that is given the alias "a": the assignment raises, "a" is the
qubit and "aResults" the cavity.  With ("a", "b") the results of the qubit have no new alias.  An alias "Qubit1Results" makes the
constructor of the first qubit raise; the next qubit is Qubit2. -/
theorem C103_witness :
    (let x := runC library 12 (startC library) [.base 17 false, .base 15 false, .alias 2 (.str "aResults"), .alias 0 (.str "a")]
     x.1 = [true, true, true, false] ∧ x.2.w.objs.map AliasObj.alias =
      [["a"], ["Qubit1Results"], ["aResults"], ["Cavity1Results", "aResultsResults"]]) ∧
    (let x := runC library 12 (startC library) [.base 17 false, .alias 0 (.tuple [.str "a", .str "b"])]
     x.1 = [true, true] ∧ x.2.w.objs.map AliasObj.alias = [["a", "b"], ["Qubit1Results"]]) ∧
    (let x := runC library 12 (startC library) [.base 15 false, .alias 0 (.str "Qubit1Results"), .base 17 false, .base 17 false]
     x.1 = [true, true, false, true] ∧ x.2.w.objs.map AliasObj.name =
      [some "Cavity1", some "_qResults1", some "Qubit1", some "_qResults2", some "Qubit2", some "_qResults3"]) := by
  refine ⟨⟨?_, ?_⟩, ⟨?_, ?_⟩, ⟨?_, ?_⟩⟩ <;> decide +kernel

/-- Without exceptions. -/
example :
    let c := (runC library 12 (startC library) [.base 17 false, .base 15 false, .alias 0 (.list [.str "a", .str "b"])]).2
    qRes c 0 = some 1 ∧ c.w.objs.map AliasObj.alias = [["a", "b"], ["Qubit1Results", "aResults", "bResults"], [], ["Cavity1Results"]] ∧
    getByNameOrAlias c.w (.str "bResults") = some 1 ∧ aget (envOf c.w.objs) c.w.subSys (.str "Cavity1Results") = some 3 := by
  refine ⟨?_, ?_, ?_, ?_⟩ <;> decide +kernel

end Verif.Names.Res
