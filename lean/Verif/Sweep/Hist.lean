import Verif.Sweep.Props
import Verif.Sweep.Create
import Mathlib.Algebra.BigOperators.Ring.List

/-!
# C87: sweeps over the lifetime of a simulation

A simulation whose sweeps are created, changed and removed between runs, with the attributes the sweeps assign:
`Sweep.createSweep`, `removeSweep`, `prepare`, `runSweep` (`QSweep.py:244-337`), `_sweep._defSweep` (`QSweep.py:146-174`) and the loop of
`nonParalEvol` (`modularSweep.py:52-72`).  Simplifications: one process; sweeps are given by their position; the list of a sweep is given
directly (ranges are C85); what is computed at a point is a function of the attributes and the auxiliary dictionary at this point, and does not
change them.
-/
namespace Verif.Sweep

variable {V : Type}

/-- A `_sweep` with everything: what it assigns, its list and its flag (`QSweep.py:37-174`). -/
structure Swp (V : Type) where
  target : Target
  vals : List V
  comb : Bool

/-- What the counting part of the machinery sees of a sweep. -/
def Swp.obj (s : Swp V) : SweepObj V := ⟨s.vals, s.comb⟩

/-- A simulation as far as sweeps are concerned: the attributes, the sweeps and what the last `prepare` left (`QSweep.py:198-210`). -/
structure SimState (V : Type) where
  heap : Heap V
  sweeps : List (Swp V)
  prep : SweepState

/-- `Sweep.runSweep(indList)` (`QSweep.py:325-337`) with `_runUpdate`: the sweeps assign one after the other.  The flag is `false` if an error
is raised; the heap is then as the error leaves it. -/
def assignLoop (indList : List Nat) : Nat → List (Swp V) → Heap V → Heap V × Bool
  | _, [], h => (h, true)
  | indx, s :: ss, h =>
    let indx := if s.comb then indx + 1 else indx
    match indList[indx]? with
    | none => (h, false)
    | some i => match s.vals[i]? with
      | none => (h, false)
      | some v => match runUpdate s.target v h with
        | none => (h, false)
        | some h' => assignLoop indList indx ss h'

/-- The sweep part of `_runSweepAndPrep(qSim, ind)` (`modularSweep.py:70-72`). -/
def assignPoint (fd : FloatDiv) (prep : SweepState) (sweeps : List (Swp V)) (ind : Nat) (h : Heap V) : Heap V × Bool :=
  if prep.inds.length > 0 then
    match indicesForSweep fd ind prep.inds with
    | none => (h, false)
    | some l => assignLoop l 0 sweeps h
  else (h, true)

/-- The loop of `nonParalEvol` (`modularSweep.py:52-55`): the heaps with which the points are computed, the heap at the end, and whether no error
was raised. -/
def pointLoop (fd : FloatDiv) (prep : SweepState) (sweeps : List (Swp V)) : List Nat → Heap V → List (Heap V) × Heap V × Bool
  | [], h => ([], h, true)
  | ind :: r, h => match assignPoint fd prep sweeps ind h with
    | (h, false) => ([], h, false)
    | (h, true) => match pointLoop fd prep sweeps r h with
      | (l, g, b) => (h :: l, g, b)

/-- `Simulation.run` (`QSim.py:341-352`): `Sweep.prepare()` and the loop over the points. -/
def runSim (fd : FloatDiv) (st : SimState V) : SimState V × List (Heap V) × Bool :=
  let prep := prepare st.prep (st.sweeps.map Swp.obj)
  match pointLoop fd prep st.sweeps (List.range prep.indMultip) st.heap with
  | (l, g, b) => ({ st with heap := g, prep := prep }, l, b)

/-- What can be done between and with runs: creating a sweep (`QSweep.py:268-310`), removing one (`QSweep.py:258-259`), a new list
(`QSweep.py:138-144`), a new flag (`QSweep.py:84`), assigning an attribute, running. -/
inductive HCmd (V : Type)
  | create (systems : List Nat) (key : Option String) (vals : List V) (comb : Bool)
  | remove (i : Nat)
  | setVals (i : Nat) (vals : List V)
  | setComb (i : Nat) (comb : Bool)
  | assign (s : Nat) (k : String) (v : V)
  | run

/-- Changing the sweep at a position. -/
def modifyAt (f : Swp V → Swp V) : Nat → List (Swp V) → List (Swp V)
  | _, [] => []
  | 0, s :: r => f s :: r
  | i + 1, s :: r => s :: modifyAt f i r

/-- One command; a command that raises before `run` changes nothing. -/
def hstep (fd : FloatDiv) (st : SimState V) : HCmd V → SimState V
  | .create l key vals comb => match createSweep st.heap none [] (some l) key with
    | .error _ => st
    | .ok (_, t) => { st with sweeps := st.sweeps ++ [⟨t, vals, comb⟩] }
  | .remove i => { st with sweeps := st.sweeps.eraseIdx i }
  | .setVals i vals => { st with sweeps := modifyAt (fun s => { s with vals := vals }) i st.sweeps }
  | .setComb i comb => { st with sweeps := modifyAt (fun s => { s with comb := comb }) i st.sweeps }
  | .assign s k v => { st with heap := st.heap.set s k v }
  | .run => (runSim fd st).1

/-! ### Specification -/

/-- The sweep assigns attribute `k` of object `s`. -/
def Names (sw : Swp V) (s : Nat) (k : String) : Prop := sw.target.key = some k ∧ sw.target.aux = false ∧ s ∈ sw.target.systems

/-- The attributes `g` are those of the point with index tuple `t`: what no sweep names is as in `h`, everything else has the value that the last
sweep naming it has at this tuple. -/
def AtPoint (sweeps : List (Swp V)) (h : Heap V) (t : List Nat) (g : Heap V) : Prop :=
  ∀ s k, ((∀ sw ∈ sweeps, ¬ Names sw s k) → g.attr s k = h.attr s k) ∧
    ∀ (j : Nat) (sw : Swp V), sweeps[j]? = some sw → Names sw s k → (∀ (j' : Nat) (sw' : Swp V), j < j' → sweeps[j']? = some sw' → ¬ Names sw' s k) →
      ∃ i, t[axisOf (sweeps.map Swp.obj) j]? = some i ∧ i < sw.vals.length ∧ g.attr s k = sw.vals[i]?

/-- The sweeps at every `run` of a list of commands. -/
def sweepsAtRuns (fd : FloatDiv) : SimState V → List (HCmd V) → List (List (Swp V))
  | _, [] => []
  | st, c :: cs => (match c with | .run => [st.sweeps] | _ => []) ++ sweepsAtRuns fd (hstep fd st c) cs

/-! ### Lemmas -/

theorem assignLoop_ok (indList : List Nat) (indx : Nat) (ss : List (Swp V)) (h : Heap V) (vals : List V)
    (hr : runSweepLoop indList indx (ss.map Swp.obj) = some vals) (hk : ∀ s ∈ ss, s.target.key ≠ none) :
    ∃ g, runUpdates ((ss.map (·.target)).zip vals) h = some g ∧ assignLoop indList indx ss h = (g, true) := by
  induction ss generalizing indx h vals with
  | nil => exact ⟨h, by simp [runUpdates], rfl⟩
  | cons s ss ih =>
    simp only [List.map_cons, runSweepLoop, Swp.obj] at hr
    simp only [assignLoop]
    generalize hx : (if s.comb then indx + 1 else indx) = ix at hr ⊢
    cases h1 : indList[ix]? with
    | none => rw [h1] at hr; cases hr
    | some i =>
      rw [h1] at hr
      dsimp only at hr ⊢
      cases h2 : s.vals[i]? with
      | none => rw [h2] at hr; cases hr
      | some v =>
        rw [h2] at hr
        dsimp only at hr ⊢
        cases h3 : runSweepLoop indList ix (ss.map Swp.obj) with
        | none =>
          rw [h3] at hr; cases hr
        | some vs =>
          rw [h3] at hr
          cases hr
          cases hu : runUpdate s.target v h with
          | none =>
            unfold runUpdate at hu
            cases hkk : s.target.key with
            | none => exact absurd hkk (hk s List.mem_cons_self)
            | some k => rw [hkk] at hu; cases hu
          | some h' =>
            obtain ⟨g, hg1, hg2⟩ := ih ix h' vs h3 (fun s' hs' => hk s' (List.mem_cons_of_mem _ hs'))
            refine ⟨g, ?_, hg2⟩
            simp only [List.map_cons, List.zip_cons_cons, runUpdates, hu]
            exact hg1

/-- The last element of a list with a property, from `find?` on the reversed list. -/
theorem find_reverse {α : Type} (p : α → Bool) (l : List α) (j : Nat) (a : α) (hj : l[j]? = some a) (hp : p a = true)
    (hl : ∀ j' b, j < j' → l[j']? = some b → p b = false) : l.reverse.find? p = some a := by
  induction l generalizing j with
  | nil => simp at hj
  | cons x l ih =>
    rw [List.reverse_cons, List.find?_append]
    cases j with
    | zero =>
      simp only [List.getElem?_cons_zero, Option.some.injEq] at hj
      subst hj
      have : l.reverse.find? p = none := by
        rw [List.find?_eq_none]
        intro b hb
        obtain ⟨i, hi⟩ := List.mem_iff_getElem?.mp (List.mem_reverse.mp hb)
        have := hl (i + 1) b (by omega) (by simpa using hi)
        simp [this]
      rw [this]; simp [hp]
    | succ j =>
      simp only [List.getElem?_cons_succ] at hj
      rw [ih j hj fun j' b h1 h2 => hl (j' + 1) b (by omega) (by simpa using h2)]
      rfl

/-- One point: the attributes are those of the tuple. -/
theorem assignLoop_point (s : Swp V) (ss : List (Swp V)) (hs : s.comb = false) (hl : LongEnough ((s :: ss).map Swp.obj))
    (hk : ∀ x ∈ s :: ss, x.target.key ≠ none) (t : List Nat) (ht : ValidIdx (axes ((s :: ss).map Swp.obj)) t) (h : Heap V) :
    ∃ g, assignLoop t 0 (s :: ss) h = (g, true) ∧ AtPoint (s :: ss) h t g := by
  obtain ⟨vals, hv, hlen, hd⟩ := C03_lockstep_partial s.obj (ss.map Swp.obj) hs hl t ht
  obtain ⟨g, hg1, hg2⟩ := assignLoop_ok t 0 (s :: ss) h vals hv hk
  refine ⟨g, hg2, ?_⟩
  intro x k
  have hw := C86_last_wins _ h g hg1 x k
  have hzip : ∀ j : Nat, (((s :: ss).map (·.target)).zip vals)[j]? =
      match (s :: ss)[j]?, vals[j]? with | some (a : Swp V), some b => some (a.target, b) | _, _ => none := by
    intro j
    rw [List.zip, List.getElem?_zipWith, List.getElem?_map]
    cases (s :: ss)[j]? <;> cases vals[j]? <;> rfl
  constructor
  · intro hn
    rw [List.find?_eq_none.mpr] at hw
    · exact hw
    · intro p hp
      obtain ⟨j, hj⟩ := List.mem_iff_getElem?.mp (List.mem_reverse.mp hp)
      rw [hzip] at hj
      cases ha : (s :: ss)[j]? with
      | none => rw [ha] at hj; cases hj
      | some a =>
        rw [ha] at hj
        cases hb : vals[j]? with
        | none => rw [hb] at hj; cases hj
        | some b =>
          rw [hb] at hj
          cases hj
          have := hn a (List.mem_of_getElem? ha)
          simpa [Names] using this
  · intro j sw hj hnm hlast
    obtain ⟨i, hi1, hi2, hi3⟩ := hd j sw.obj (by
      have : ((s :: ss).map Swp.obj)[j]? = some sw.obj := by rw [List.getElem?_map, hj]; rfl
      simpa using this)
    refine ⟨i, hi1, hi3, ?_⟩
    have hi2' : vals[j]? = some (sw.vals[i]'hi3) := by
      rw [hi2]; exact List.getElem?_eq_getElem hi3
    rw [find_reverse _ _ j (sw.target, sw.vals[i]'hi3)] at hw
    · rw [hw]; exact (List.getElem?_eq_getElem hi3).symm
    · rw [hzip, hj, hi2']
    · simpa [Names] using hnm
    · intro j' p hlt hp
      rw [hzip] at hp
      cases ha : (s :: ss)[j']? with
      | none => rw [ha] at hp; cases hp
      | some a =>
        rw [ha] at hp
        cases hb : vals[j']? with
        | none => rw [hb] at hp; cases hp
        | some b =>
          rw [hb] at hp
          cases hp
          have := hlast j' a hlt ha
          simpa [Names] using this

/-- What no sweep names does not matter for the rest. -/
theorem AtPoint.congr {sweeps : List (Swp V)} {h h' : Heap V} {t : List Nat} {g : Heap V}
    (e : ∀ s k, (∀ sw ∈ sweeps, ¬ Names sw s k) → h.attr s k = h'.attr s k) (a : AtPoint sweeps h t g) : AtPoint sweeps h' t g :=
  fun s k => ⟨fun hn => ((a s k).1 hn).trans (e s k hn), (a s k).2⟩

theorem pointLoop_ok (fd : FloatDiv) (prep : SweepState) (s : Swp V) (ss : List (Swp V)) (hs : s.comb = false)
    (hl : LongEnough ((s :: ss).map Swp.obj)) (hk : ∀ x ∈ s :: ss, x.target.key ≠ none)
    (hp : prep.inds = (axes ((s :: ss).map Swp.obj)).reverse) (hb : (axes ((s :: ss).map Swp.obj)).prod ≤ 2 ^ 53) (h : Heap V)
    (l : List Nat) (hlt : ∀ i ∈ l, i < (axes ((s :: ss).map Swp.obj)).prod) (h0 : Heap V)
    (he : ∀ x k, (∀ sw ∈ s :: ss, ¬ Names sw x k) → h0.attr x k = h.attr x k) :
    ∃ tr g, pointLoop fd prep (s :: ss) l h0 = (tr, g, true) ∧ g = (tr.getLast?).getD h0 ∧
      List.Forall₂ (AtPoint (s :: ss) h) (l.map (idxOf (axes ((s :: ss).map Swp.obj)))) tr := by
  induction l generalizing h0 with
  | nil => exact ⟨[], h0, rfl, rfl, .nil⟩
  | cons i l ih =>
    obtain ⟨g1, hg1, hg2⟩ := assignLoop_point s ss hs hl hk _ (idxOf_valid _ i (hlt i List.mem_cons_self)) h0
    have hpt : assignPoint fd prep (s :: ss) i h0 = (g1, true) := by
      unfold assignPoint
      rw [hp, if_pos (by simp [axes]), indicesForSweep_eq fd _ i (hlt i List.mem_cons_self) hb]
      exact hg1
    obtain ⟨tr, g, h1, h2, h3⟩ := ih (fun j hj => hlt j (List.mem_cons_of_mem _ hj)) g1
      (fun x k hn => ((hg2 x k).1 hn).trans (he x k hn))
    refine ⟨g1 :: tr, g, ?_, ?_, ?_⟩
    · simp only [pointLoop, hpt, h1]
    · rw [h2]
      cases tr with
      | nil => rfl
      | cons a b => simp [List.getLast?_cons]
    · exact .cons (hg2.congr he) h3

/-! ### Statements -/

/-- A run with sweeps depends on nothing but the sweeps there are now and the attributes: whatever was run, created or removed before (`st.prep`
is arbitrary), the points are those of the nested loops over the present lists, in this order, each with its own attributes; afterwards the
attributes are those of the last point.  Needed: the first sweep is not combinatorial, simultaneous lists are long enough, keys are strings. -/
theorem C87_points_partial (fd : FloatDiv) (st : SimState V) (s : Swp V) (ss : List (Swp V)) (hst : st.sweeps = s :: ss) (hs : s.comb = false)
    (hl : LongEnough ((s :: ss).map Swp.obj)) (hk : ∀ x ∈ s :: ss, x.target.key ≠ none)
    (hb : (axes ((s :: ss).map Swp.obj)).prod ≤ 2 ^ 53) :
    ∃ st' tr, runSim fd st = (st', tr, true) ∧ List.Forall₂ (AtPoint (s :: ss) st.heap) (tuples (axes ((s :: ss).map Swp.obj))) tr ∧
      st'.heap = (tr.getLast?).getD st.heap ∧ st'.sweeps = st.sweeps := by
  have hne : (s :: ss).map Swp.obj ≠ [] := by simp
  obtain ⟨tr, g, h1, h2, h3⟩ := pointLoop_ok fd (prepare st.prep ((s :: ss).map Swp.obj)) s ss hs hl hk (prepare_inds _ _ hne) hb st.heap
    (List.range (axes ((s :: ss).map Swp.obj)).prod) (fun i hi => List.mem_range.mp hi) st.heap (fun _ _ _ => rfl)
  refine ⟨{ st with heap := g, prep := prepare st.prep ((s :: ss).map Swp.obj) }, tr, ?_, ?_, h2, rfl⟩
  · unfold runSim
    rw [hst]
    simp only
    rw [prepare_multip _ _ hne, h1]
  · rw [map_idxOf_range] at h3; exact h3

theorem pointLoop_nil (fd : FloatDiv) (prep : SweepState) (hp : prep.indMultip = prep.inds.prod) (l : List Nat)
    (hl : ∀ i ∈ l, i < prep.indMultip) (h : Heap V) :
    pointLoop fd prep [] l h = (List.replicate l.length h, h, true) := by
  have hpos : ∀ (l : List Nat) (n : Nat) (acc : List Nat), (∀ a ∈ l, a ≠ 0) → indicesLoop fd n l acc ≠ none := by
    intro l
    induction l with
    | nil => intro n acc _ c; cases c
    | cons a l ih =>
      intro n acc ha
      rw [indicesLoop, if_neg (ha a List.mem_cons_self)]
      exact ih _ _ fun b hb => ha b (List.mem_cons_of_mem _ hb)
  induction l with
  | nil => rfl
  | cons i l ih =>
    have ha : assignPoint fd prep ([] : List (Swp V)) i h = (h, true) := by
      unfold assignPoint
      split
      · have : indicesForSweep fd i prep.inds ≠ none := by
          apply hpos
          intro a ha h0
          have := hl i List.mem_cons_self
          rw [hp, List.prod_eq_zero_iff.mpr (h0 ▸ ha)] at this
          omega
        cases hx : indicesForSweep fd i prep.inds with
        | none => exact absurd hx this
        | some l => rfl
      · rfl
    simp only [pointLoop, ha, ih fun j hj => hl j (List.mem_cons_of_mem _ hj), List.length_cons, List.replicate_succ]

/-- The counters after any history are those of the last run that had sweeps. -/
theorem hist_prep (fd : FloatDiv) (cs : List (HCmd V)) (st : SimState V) (d : List Nat) (hd : st.prep = ⟨d, d.prod⟩) :
    (cs.foldl (hstep fd) st).prep =
      match ((sweepsAtRuns fd st cs).filter (fun l => !l.isEmpty)).getLast? with
      | none => ⟨d, d.prod⟩
      | some l => ⟨(axes (l.map Swp.obj)).reverse, (axes (l.map Swp.obj)).prod⟩ := by
  induction cs generalizing st d with
  | nil => simpa [sweepsAtRuns] using hd
  | cons c cs ih =>
    rw [List.foldl_cons]
    by_cases hc : c = .run
    · subst hc
      simp only [sweepsAtRuns]
      have hp : (hstep fd st .run).prep = prepare st.prep (st.sweeps.map Swp.obj) := rfl
      cases hsw : st.sweeps with
      | nil =>
        rw [ih (hstep fd st .run) d (by rw [hp, hsw]; exact hd)]
        simp
      | cons s ss =>
        have hne : (s :: ss).map Swp.obj ≠ [] := by simp
        have hp' : (hstep fd st .run).prep =
            ⟨(axes ((s :: ss).map Swp.obj)).reverse, ((axes ((s :: ss).map Swp.obj)).reverse).prod⟩ := by
          rw [hp, hsw, ← prepare_inds st.prep _ hne]
          have := prepare_multip st.prep _ hne
          rw [← List.prod_reverse, ← prepare_inds st.prep _ hne] at this
          rw [← this]
        rw [ih (hstep fd st .run) _ hp']
        simp only [List.cons_append, List.nil_append, List.isEmpty_cons, Bool.not_false, List.filter_cons_of_pos, List.getLast?_cons]
        cases (List.filter (fun l => !l.isEmpty) (sweepsAtRuns fd (hstep fd st HCmd.run) cs)).getLast? with
        | none => simp [List.prod_reverse]
        | some l => rfl
    · have hp : (hstep fd st c).prep = st.prep := by
        cases c with
        | create l key vals comb =>
          simp only [hstep]
          split <;> rfl
        | run => exact absurd rfl hc
        | _ => rfl
      have he : sweepsAtRuns fd st (c :: cs) = sweepsAtRuns fd (hstep fd st c) cs := by
        cases c with
        | run => exact absurd rfl hc
        | _ => rfl
      rw [he]
      exact ih _ d (hp.trans hd)

/-- A run without sweeps is not one evolution: after any history it repeats the same point as often as the last run that had sweeps had
points, and the results are nested like those.  Only a simulation that was never run with sweeps does it once. -/
theorem C87_stale (fd : FloatDiv) (h : Heap V) (sw : List (Swp V)) (cs : List (HCmd V)) (st : SimState V)
    (hst : st = cs.foldl (hstep fd) ⟨h, sw, {}⟩) (hno : st.sweeps = []) :
    ∃ L : List Nat, (L = match ((sweepsAtRuns fd ⟨h, sw, {}⟩ cs).filter (fun l => !l.isEmpty)).getLast? with
        | none => []
        | some l => axes (l.map Swp.obj)) ∧
      (runSim fd st).2 = (List.replicate L.prod st.heap, true) ∧ (runSim fd st).1.heap = st.heap ∧
      ∀ {β : Type} (store : Heap V → PyVal β),
        L ≠ [] → ∃ r, finalise (runSim fd st).1.prep.inds ((runSim fd st).2.1.map store) = some r ∧
          ∀ t, ValidIdx L t → ∃ shown, nestedGet r t = some shown ∧ Shown (store st.heap) shown := by
  have hp := hist_prep fd cs ⟨h, sw, {}⟩ [] rfl
  rw [← hst] at hp
  refine ⟨_, rfl, ?_⟩
  generalize hL : (match ((sweepsAtRuns fd ⟨h, sw, {}⟩ cs).filter (fun l => !l.isEmpty)).getLast? with
        | none => []
        | some l => axes (l.map Swp.obj)) = L
  have hp : st.prep = ⟨L.reverse, L.prod⟩ := by
    rw [hp, ← hL]
    cases ((sweepsAtRuns fd ⟨h, sw, {}⟩ cs).filter (fun l => !l.isEmpty)).getLast? <;> rfl
  have hrun : runSim fd st = (st, List.replicate L.prod st.heap, true) := by
    unfold runSim
    have : prepare st.prep (st.sweeps.map Swp.obj) = st.prep := by rw [hno]; rfl
    simp only [this]
    rw [hno, pointLoop_nil fd st.prep (by rw [hp]; exact (List.prod_reverse L).symm) _ (fun i hi => List.mem_range.mp hi), List.length_range, hp]
    obtain ⟨a, b, c⟩ := st
    cases hp; cases hno; rfl
  refine ⟨by rw [hrun], by rw [hrun], ?_⟩
  intro β store hne
  rw [hrun]
  simp only [List.map_replicate]
  obtain ⟨r, hr1, hr2⟩ := reShape_spec (List.replicate L.prod (store st.heap)) L hne 0 (by simp)
  refine ⟨.list r, ?_, ?_⟩
  · unfold finalise
    rw [hp, if_neg (by simpa using hne), List.reverse_reverse, hr1]
  · intro t ht
    obtain ⟨w, hw1, hw2⟩ := hr2 t ht
    have hf := flat_lt _ _ ht
    rw [Nat.zero_add, List.getElem?_replicate, if_pos hf] at hw1
    cases hw1
    exact ⟨_, hw2, shown_unwrapSingle _⟩

/-- The attribute that was swept is not put back: a qubit with frequency 5, swept over 1, 2, 3; after the sweep is removed, a run computes three
times the same point, with frequency 3. -/
theorem C87_leftover (fd : FloatDiv) : ∃ (h : Heap Nat) (cs : List (HCmd Nat)), h.attr 1 "frequency" = some 5 ∧
    (∀ c ∈ cs, ∀ s k v, c ≠ .assign s k v) ∧ (cs.foldl (hstep fd) ⟨h, [], {}⟩).sweeps = [] ∧
    (runSim fd (cs.foldl (hstep fd) ⟨h, [], {}⟩)).2.1.map (fun g => g.attr 1 "frequency") = [some 3, some 3, some 3] := by
  refine ⟨⟨fun s k => if s = 1 ∧ k = "frequency" then some 5 else none, fun _ => none, 0⟩,
    [.create [1] (some "frequency") [1, 2, 3] false, .run, .remove 0], rfl, ?_, rfl, ?_⟩
  · intro c hc s k v
    simp only [List.mem_cons, List.not_mem_nil, or_false] at hc
    rcases hc with rfl | rfl | rfl <;> exact fun c => by cases c
  · obtain ⟨L, hL, h1, -, -⟩ := C87_stale fd ⟨fun s k => if s = 1 ∧ k = "frequency" then some 5 else none, fun _ => none, 0⟩ []
      [.create [1] (some "frequency") [1, 2, 3] false, .run, .remove 0] _ rfl rfl
    have hL : L = [3] := hL
    subst hL
    rw [h1]
    obtain ⟨st', tr, hr, hf, hh, -⟩ := C87_points_partial fd
      (hstep fd ⟨⟨fun s k => if s = 1 ∧ k = "frequency" then some 5 else none, fun _ => none, 0⟩, [], {}⟩
        (.create [1] (some "frequency") [1, 2, 3] false)) ⟨⟨[1], some "frequency", false⟩, [1, 2, 3], false⟩ [] rfl rfl (by
          intro j s hj n hn
          match j with
          | 0 => simp [Swp.obj] at hj; subst hj; simp [axes, axisOf, Swp.obj] at hn; simp [← hn]
          | j + 1 => simp at hj) (by simp) (by simp [axes, Swp.obj])
    have ht : tuples (axes ([⟨⟨[1], some "frequency", false⟩, [1, 2, 3], false⟩].map (Swp.obj (V := Nat)))) = [[0], [1], [2]] := by decide
    rw [ht] at hf
    match tr, hf with
    | [a, b, c], .cons _ (.cons _ (.cons hc .nil)) =>
      obtain ⟨i, hi, -, hv⟩ := (hc 1 "frequency").2 0 _ rfl ⟨rfl, rfl, by simp⟩ (by
        intro j' sw' hlt hj'
        match j' with
        | 0 => omega
        | j + 1 => simp at hj')
      have hi : some 2 = some i := hi
      cases hi
      have hheap : (List.foldl (hstep fd) ⟨⟨fun s k => if s = 1 ∧ k = "frequency" then some 5 else none, fun _ => none, 0⟩, [], {}⟩
          [.create [1] (some "frequency") [1, 2, 3] false, .run, .remove 0]).heap = c := by
        have : (runSim fd (hstep fd ⟨⟨fun s k => if s = 1 ∧ k = "frequency" then some 5 else none, fun _ => none, 0⟩, [], {}⟩
          (.create [1] (some "frequency") [1, 2, 3] false))).1.heap = c := by rw [hr]; exact hh
        exact this
      rw [hheap]
      simpa using hv

/-- A run that raises leaves the attributes in the middle of a point: the first sweep has assigned its third value, the second, whose list is too
short, nothing. -/
theorem C87_error_leaves : ∃ st : SimState Nat, ∃ st' tr, runSim exactDiv st = (st', tr, false) ∧ tr.length = 2 ∧
    st.heap.attr 1 "frequency" = some 5 ∧ st'.heap.attr 1 "frequency" = some 3 ∧ st'.heap.attr 2 "frequency" = some 8 :=
  ⟨⟨⟨fun _ _ => some 5, fun _ => none, 0⟩, [⟨⟨[1], some "frequency", false⟩, [1, 2, 3], false⟩, ⟨⟨[2], some "frequency", false⟩, [7, 8], false⟩],
    {}⟩, _, _, rfl, rfl, rfl, rfl, rfl⟩

theorem modifyAt_get (f : Swp V → Swp V) (i : Nat) (l : List (Swp V)) (j : Nat) : (modifyAt f i l)[j]? = if j = i then (l[j]?).map f else l[j]? := by
  induction l generalizing i j with
  | nil => cases i <;> simp [modifyAt]
  | cons s l ih =>
    cases i with
    | zero => cases j <;> simp [modifyAt]
    | succ i => cases j <;> simp [modifyAt, ih]

/-- What the commands between runs do to the sweeps, by position, and to the attributes. -/
theorem C87_commands (fd : FloatDiv) (st : SimState V) :
    (∀ l key vals comb, ((hstep fd st (.create l key vals comb)).sweeps = st.sweeps ∨
      ∃ t, (hstep fd st (.create l key vals comb)).sweeps = st.sweeps ++ [⟨t, vals, comb⟩] ∧ t.key = key) ∧
      (∀ k s, key = some k → l = [s] → s ≠ st.heap.auxObj → ∃ a, (hstep fd st (.create l key vals comb)).sweeps =
        st.sweeps ++ [⟨⟨[s], some k, a⟩, vals, comb⟩] ∧ (a = false ↔ (st.heap.attr s k).isSome))) ∧
    (∀ i j, (hstep fd st (.remove i)).sweeps[j]? = if j < i then st.sweeps[j]? else st.sweeps[j + 1]?) ∧
    (∀ i vals j, (hstep fd st (.setVals i vals)).sweeps[j]? =
      if j = i then (st.sweeps[j]?).map (fun s => ⟨s.target, vals, s.comb⟩) else st.sweeps[j]?) ∧
    (∀ i comb j, (hstep fd st (.setComb i comb)).sweeps[j]? =
      if j = i then (st.sweeps[j]?).map (fun s => ⟨s.target, s.vals, comb⟩) else st.sweeps[j]?) ∧
    (∀ s k v s' k', (hstep fd st (.assign s k v)).heap.attr s' k' = (if s' = s ∧ k' = k then some v else st.heap.attr s' k')) ∧
    (∀ s k v, (hstep fd st (.assign s k v)).sweeps = st.sweeps) ∧
    ∀ c, (∀ s k v, c ≠ .assign s k v) → c ≠ .run → (hstep fd st c).heap = st.heap := by
  refine ⟨fun l key vals comb => ⟨?_, ?_⟩, fun i j => ?_, fun i vals j => ?_, fun i comb j => ?_, fun s k v s' k' => rfl, fun s k v => rfl, ?_⟩
  · simp only [hstep]
    cases h : createSweep st.heap none [] (some l) key with
    | error e => exact .inl rfl
    | ok r =>
      refine .inr ⟨r.2, rfl, ?_⟩
      unfold createSweep at h
      dsimp only at h
      by_cases ha : l = [st.heap.auxObj]
      · rw [if_pos ha] at h; cases h; rfl
      · rw [if_neg ha] at h
        cases key with
        | none => cases h
        | some k =>
          cases hl : asKeys l with
          | nil => rw [hl] at h; cases h
          | cons s r =>
            rw [hl] at h
            dsimp only at h
            by_cases h1 : (st.heap.attr s k).isSome = true
            · rw [if_pos h1] at h
              by_cases h2 : ∀ s' ∈ r, (st.heap.attr s' k).isSome = true
              · rw [if_pos h2] at h; cases h; rfl
              · rw [if_neg h2] at h; cases h
            · rw [if_neg h1] at h; cases h; rfl
  · rintro k s rfl rfl hs
    have ha : ¬ [s] = [st.heap.auxObj] := by simpa using hs
    have hk : asKeys [s] = [s] := rfl
    simp only [hstep, createSweep, if_neg ha, hk]
    by_cases h1 : (st.heap.attr s k).isSome = true
    · refine ⟨false, ?_, by simp [h1]⟩
      rw [if_pos h1, if_pos (by simp)]
    · refine ⟨true, ?_, by simp [h1]⟩
      rw [if_neg h1]
  · simp only [hstep, List.getElem?_eraseIdx]
  · simp only [hstep, modifyAt_get]
  · simp only [hstep, modifyAt_get]
  · intro c hc hr
    cases c with
    | create l key vals comb =>
      simp only [hstep]
      split <;> rfl
    | assign s k v => exact absurd rfl (hc s k v)
    | run => exact absurd rfl hr
    | _ => rfl

/-- Number of combinatorial sweeps. -/
def combs (l : List (Swp V)) : Nat := (l.filter (·.comb)).length

theorem assignLoop_over (indList : List Nat) (indx : Nat) (l : List (Swp V)) (hl : l ≠ []) (h : Heap V) (ho : indList.length ≤ indx + combs l) :
    (assignLoop indList indx l h).2 = false := by
  induction l generalizing indx h with
  | nil => exact absurd rfl hl
  | cons s ss ih =>
    have hc : (if s.comb = true then indx + 1 else indx) + combs ss = indx + combs (s :: ss) := by
      unfold combs
      by_cases e : s.comb = true
      · simp [e]; omega
      · simp [e]
    unfold assignLoop
    dsimp only
    cases h1 : indList[if s.comb = true then indx + 1 else indx]? with
    | none => rfl
    | some i =>
      dsimp only
      cases s.vals[i]? with
      | none => rfl
      | some v =>
        dsimp only
        cases runUpdate s.target v h with
        | none => rfl
        | some h' =>
          dsimp only
          refine ih _ ?_ h' (by omega)
          rintro rfl
          have := (List.getElem?_eq_some_iff.mp h1).1
          simp only [combs, List.filter_nil, List.length_nil] at hc
          unfold combs at ho
          omega

/-- If the first sweep is combinatorial (there is no earlier one to be combined with), the run raises before the first point.  So does a run
whose first sweep does not say which attribute to assign; then nothing has been assigned. -/
theorem C87_raises (fd : FloatDiv) (st : SimState V) (s : Swp V) (ss : List (Swp V)) (hst : st.sweeps = s :: ss)
    (hp : 0 < (axes ((s :: ss).map Swp.obj)).prod) (hb : (axes ((s :: ss).map Swp.obj)).prod ≤ 2 ^ 53) :
    (s.comb = true → (runSim fd st).2 = ([], false)) ∧
    (s.comb = false → s.target.key = none → (runSim fd st).2 = ([], false) ∧ (runSim fd st).1.heap = st.heap) := by
  have hne : (s :: ss).map Swp.obj ≠ [] := by simp
  have hl : (prepare st.prep (st.sweeps.map Swp.obj)).inds.length > 0 := by
    rw [hst, prepare_inds _ _ hne, List.length_reverse]
    simp [axes]
  have hrange : List.range (prepare st.prep (st.sweeps.map Swp.obj)).indMultip =
      0 :: (List.range ((axes ((s :: ss).map Swp.obj)).prod - 1)).map Nat.succ := by
    rw [hst, prepare_multip _ _ hne, ← List.range_succ_eq_map]
    congr 1; omega
  have hidx : indicesForSweep fd 0 (prepare st.prep (st.sweeps.map Swp.obj)).inds = some (idxOf (axes ((s :: ss).map Swp.obj)) 0) := by
    rw [hst, prepare_inds _ _ hne]; exact indicesForSweep_eq fd _ 0 hp hb
  have key : ∀ g, assignLoop (idxOf (axes ((s :: ss).map Swp.obj)) 0) 0 (s :: ss) st.heap = (g, false) →
      (runSim fd st).2 = ([], false) ∧ (runSim fd st).1.heap = g := by
    intro g hg
    unfold runSim
    dsimp only
    rw [hrange]
    unfold pointLoop assignPoint
    rw [if_pos hl, hidx]
    dsimp only
    rw [hst, hg]
    exact ⟨rfl, rfl⟩
  constructor
  · intro hc
    have hlen : (idxOf (axes ((s :: ss).map Swp.obj)) 0).length = combs (s :: ss) := by
      have h0 : ∀ (L : List Nat) (i : Nat), (idxOf L i).length = L.length := by
        intro L i
        induction L with
        | nil => simp [idxOf, digits]
        | cons n L ih => rw [idxOf_cons, List.length_cons, ih, List.length_cons]
      rw [h0]
      have h1 : ∀ l : List (Swp V), ((l.map Swp.obj).filter (·.comb)).length = (l.filter (·.comb)).length := by
        intro l
        rw [List.filter_map, List.length_map]
        rfl
      simp only [axes, List.map_cons, List.length_cons, List.length_map, h1, combs, List.filter_cons, hc, if_true]
    have := assignLoop_over (idxOf (axes ((s :: ss).map Swp.obj)) 0) 0 (s :: ss) (by simp) st.heap (by omega)
    exact (key (assignLoop (idxOf (axes ((s :: ss).map Swp.obj)) 0) 0 (s :: ss) st.heap).1 (Prod.ext rfl this)).1
  · intro hc hk
    apply key
    have hu : ∀ v, runUpdate s.target v st.heap = none := by intro v; simp [runUpdate, hk]
    unfold assignLoop
    simp only [hc, hu]
    cases (idxOf (axes ((s :: ss).map Swp.obj)) 0)[if false = true then 0 + 1 else 0]? with
    | none => rfl
    | some i =>
      dsimp only
      cases s.vals[i]? <;> rfl

example : (runSim exactDiv (⟨⟨fun _ _ => some 5, fun _ => none, 0⟩, [⟨⟨[1], some "f", false⟩, [1, 2], true⟩], {}⟩ : SimState Nat)).2 = ([], false) :=
  (C87_raises exactDiv (⟨⟨fun _ _ => some 5, fun _ => none, 0⟩, [⟨⟨[1], some "f", false⟩, [1, 2], true⟩], {}⟩ : SimState Nat) _ [] rfl
    (by decide) (by decide)).1 rfl

/-- A qubit with frequency 5 swept over 1, 2 and, combined, its other attribute over 7, 8: four points in the order of the loops. -/
example : (runSim exactDiv (⟨⟨fun _ _ => some 5, fun _ => none, 0⟩, [⟨⟨[1], some "f", false⟩, [1, 2], false⟩, ⟨⟨[1], some "g", false⟩, [7, 8], true⟩],
    ⟨[9, 9], 81⟩⟩ : SimState Nat)).2.1.map (fun g => (g.attr 1 "f", g.attr 1 "g", g.attr 2 "f"))
    = [(some 1, some 7, some 5), (some 1, some 8, some 5), (some 2, some 7, some 5), (some 2, some 8, some 5)] := by decide +kernel

end Verif.Sweep
