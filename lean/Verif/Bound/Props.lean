import Verif.Bound.Lemmas
/-!
# C11, C12: inherited parameters

Both properties are false in general; see the counterexamples at the end.  They hold for hierarchies of simulations: `rank`
orders the simulations and every binding goes to one of lower rank (simulation, system, protocol, step).
-/
namespace Verif.Bound
variable {V : Type} [DecidableEq V] (A : Arith V)

theorem run_append {lim : Nat} (l1 l2 : List (Cmd V)) (h : Heap V) :
    run A lim (l1 ++ l2) h = (run A lim l1 h).bind (run A lim l2) := by
  induction l1 generalizing h with
  | nil => rfl
  | cons c cs ih =>
    simp only [List.cons_append, run]
    cases exec A lim c h with
    | none => rfl
    | some h1 => exact ih h1

/-- A program split at one statement. -/
theorem run_split {lim : Nat} {l1 l2 : List (Cmd V)} {c : Cmd V} {h h' : Heap V} (e : run A lim (l1 ++ c :: l2) h = some h') :
    ∃ h1 h2, run A lim l1 h = some h1 ∧ exec A lim c h1 = some h2 ∧ run A lim l2 h2 = some h' := by
  rw [run_append] at e
  cases e1 : run A lim l1 h with
  | none => rw [e1] at e; simp at e
  | some h1 =>
    rw [e1] at e
    simp only [Option.bind_some, run] at e
    cases e2 : exec A lim c h1 with
    | none => rw [e2] at e; simp at e
    | some h2 => rw [e2] at e; exact ⟨h1, h2, rfl, e2, e⟩

private theorem mem_keys (k : Key) : k ∈ [Key.step, .total, .count, .delStates, .stateInput, .samples] := by
  cases k <;> simp

/-- After binding, every parameter that was never assigned on the child leads to the parent. -/
theorem bind_bnd {rank : Nat → Nat} {lim c p : Nat} {re : Bool} {h h' : Heap V} (H : Hier rank h) (d : rank p < rank c)
    (hl : rank c < lim) (e : exec A lim (.bind c p re) h = some h')
    (un : re = true ∨ ∀ k, h.bnd c k = .none) (k : Key) : h'.bnd c k = .to p := by
  rcases bind_spec A e with ⟨tree, ht, hm, rfl⟩ | ⟨h0, h1, b1, b2, -, m, b4, rfl⟩
  · obtain ⟨tr, e', hr⟩ := boundTree_some H lim p (by omega)
    rw [ht] at e'
    simp only [Option.some.injEq] at e'
    have := hr c (e' ▸ hm)
    omega
  · obtain ⟨-, -, -, f4⟩ := foldl_rebind_frame c p re [Key.step, .total, .count, .delStates, .stateInput, .samples] h1
    have hc : h1.bnd c k = .none ∨ re = true := by
      rcases un with un | un
      · exact Or.inr un
      · left
        rw [b4 (fun k => by rw [un k]; simp), b2]
        exact un k
    rw [f4, if_pos ⟨mem_keys k, hc⟩]

/-- C11: a simulation on which nothing was assigned before it was bound reports, after any further history that does not assign
the parameter on it, the parent's current value. -/
theorem C11_follows_partial {rank : Nat → Nat} {lim c p : Nat} (one dflt : V) (l1 l2 : List (Cmd V)) (k : Key) {h : Heap V}
    (d1 : ∀ x ∈ l1, x.Down rank) (d : rank p < rank c) (d2 : ∀ x ∈ l2, x.Down rank) (hl : rank c < lim)
    (w1 : ∀ x ∈ l1, x.sim ≠ c) (w2 : ∀ x ∈ l2, ¬ x.writes c k)
    (e : run A lim (l1 ++ .bind c p false :: l2) (fresh one dflt) = some h) :
    read lim h c k = read lim h p k := by
  obtain ⟨h1, h2, e1, e2, e3⟩ := run_split A e
  have H1 := (Hier.fresh rank one dflt).run A l1 d1 e1
  have H2 := H1.exec A (c := .bind c p false) d e2
  have H3 := H2.run A l2 d2 e3
  have un : ∀ k, h1.bnd c k = .none := fun k' =>
    (run_frame A l1 e1 c k' fun x hx w => w1 x hx (Cmd.sim_of_writes w).symm).1
  have b2 := bind_bnd A H1 d hl e2 (Or.inr un) k
  have b3 := (run_frame A l2 e3 c k w2).1.trans b2
  exact read_bound H3 hl b3

/-- C11: the same for a simulation bound with `re=True` (a step added to a protocol), whatever was assigned on it before. -/
theorem C11_follows_rebind_partial {rank : Nat → Nat} {lim c p : Nat} (one dflt : V) (l1 l2 : List (Cmd V)) (k : Key)
    {h : Heap V}
    (d1 : ∀ x ∈ l1, x.Down rank) (d : rank p < rank c) (d2 : ∀ x ∈ l2, x.Down rank) (hl : rank c < lim)
    (w2 : ∀ x ∈ l2, ¬ x.writes c k)
    (e : run A lim (l1 ++ .bind c p true :: l2) (fresh one dflt) = some h) :
    read lim h c k = read lim h p k := by
  obtain ⟨h1, h2, e1, e2, e3⟩ := run_split A e
  have H1 := (Hier.fresh rank one dflt).run A l1 d1 e1
  have H2 := H1.exec A (c := .bind c p true) d e2
  have H3 := H2.run A l2 d2 e3
  have b2 := bind_bnd A H1 d hl e2 (Or.inl rfl) k
  have b3 := (run_frame A l2 e3 c k w2).1.trans b2
  exact read_bound H3 hl b3

/-- C11: so does the number of steps, which is computed when it is read. -/
theorem C11_stepCount_partial {rank : Nat → Nat} {lim c p : Nat} (one dflt : V) (l1 l2 : List (Cmd V)) {h : Heap V}
    (d1 : ∀ x ∈ l1, x.Down rank) (d : rank p < rank c) (d2 : ∀ x ∈ l2, x.Down rank) (hl : rank c < lim)
    (w1 : ∀ x ∈ l1, x.sim ≠ c) (w2 : ∀ x ∈ l2, x.sim ≠ c)
    (e : run A lim (l1 ++ .bind c p false :: l2) (fresh one dflt) = some h) :
    (getCount A lim h c).map Prod.fst = (getCount A lim h p).map Prod.fst := by
  have w2' : ∀ k, ∀ x ∈ l2, ¬ x.writes c k := fun k x hx w => w2 x hx (Cmd.sim_of_writes w).symm
  have f := fun k => C11_follows_partial A one dflt l1 l2 k d1 d d2 hl w1 (w2' k) e
  have f1 := f .total
  have f2 := f .step
  have f3 := f .count
  simp only [read] at f1 f2 f3
  unfold getCount
  rw [f1, f2, f3]
  rcases readF h lim p .total with _ | _ | T <;> rcases readF h lim p .step with _ | _ | dt <;>
    rcases readF h lim p .count with _ | _ | n <;> simp [Option.map_map] <;> rfl

/-- C11: no statement addressed to a simulation changes what another one of at most its rank reports: assigning on the child
never changes the parent. -/
theorem C11_parent_partial {rank : Nat → Nat} {lim p : Nat} (one dflt : V) (l : List (Cmd V)) (x : Cmd V) (k : Key)
    {h h' : Heap V} (d : ∀ y ∈ l, y.Down rank) (hp : rank p ≤ rank x.sim) (hne : p ≠ x.sim)
    (e : run A lim l (fresh one dflt) = some h) (e' : exec A lim x h = some h') :
    read lim h' p k = read lim h p k := by
  have H := (Hier.fresh rank one dflt).run A l d e
  refine readF_congr H k (fun s => s ≠ x.sim ∧ rank s ≤ rank x.sim) ?_ ?_ lim p ⟨hne, hp⟩
  · intro s hs
    exact exec_frame A e' s k fun w => hs.1 (Cmd.sim_of_writes w)
  · intro s t hs ht
    refine ⟨?_, by omega⟩
    rintro rfl
    omega

theorem readF_own {h : Heap V} {lim s : Nat} {k : Key} (hl : 0 < lim) (e : h.bnd s k = .broken) :
    readF h lim s k = some (h.val s k) := by
  obtain ⟨l, rfl⟩ : ∃ m, lim = m + 1 := ⟨lim - 1, by omega⟩
  simp [readF, e]

private theorem copy_read {h : Heap V} {lim s : Nat} {k k' : Key} (hk : k ≠ k') :
    readF (copyFromBound h s k') lim s k = readF h lim s k := by
  have key : ∀ l t, readF (copyFromBound h s k') l t k = readF h l t k := by
    intro l
    induction l with
    | zero => intro t; rfl
    | succ l ih =>
      intro t
      have hb : (copyFromBound h s k').bnd = h.bnd := by unfold copyFromBound; split <;> rfl
      have hv : (copyFromBound h s k').val t k = h.val t k := by
        unfold copyFromBound; split
        · simp [putVal, hk]
        · rfl
      simp only [readF, hb, hv, ih]
  exact key lim s

theorem setAttrParam_own {lim : Nat} {h h' : Heap V} {s : Nat} {k : Key} {v : Option V}
    (e : setAttrParam lim h s k v = some h') (hne : readF h lim s k ≠ some v) :
    h'.bnd s k = .broken ∧ h'.val s k = v := by
  unfold setAttrParam at e
  split at e
  · simp at e
  · rename_i old ho
    rw [ho] at hne
    simp only [Option.some.injEq] at e hne
    rw [if_pos (fun x => hne (by rw [x]))] at e
    subst e
    simp [setValue, putVal, putBnd]

private theorem setValue_other {h : Heap V} {s : Nat} {k k' : Key} {v : Option V} (hk : k ≠ k') :
    (setValue h s k' v).bnd s k = h.bnd s k ∧ (setValue h s k' v).val s k = h.val s k := by
  simp [setValue, putVal, putBnd, hk]

/-- An assignment of a new value makes the parameter the simulation's own. -/
theorem setProp_own {lim : Nat} {h h' : Heap V} {c : Nat} {k : Key} {v : V} (e : setProp A lim h c k v = some h')
    (hne : k = .delStates ∨ k = .stateInput ∨ readF h lim c k ≠ some (some v)) :
    h'.bnd c k = .broken ∧ h'.val c k = some v := by
  cases k with
  | delStates => simp only [setProp, Option.some.injEq] at e; subst e; simp [setValue, putVal, putBnd]
  | stateInput => simp only [setProp, Option.some.injEq] at e; subst e; simp [setValue, putVal, putBnd]
  | samples => exact setAttrParam_own e (by simpa using hne)
  | step =>
    simp only [setProp, setStep] at e
    split at e
    · simp at e
    rename_i h1 e1
    have o := setAttrParam_own e1 (by rw [copy_read (by decide)]; simpa using hne)
    split at e
    · simp at e
    · simp only [Option.some.injEq] at e; exact e ▸ o
    · simp only [Option.map_eq_some_iff] at e
      obtain ⟨n, -, rfl⟩ := e
      obtain ⟨x, y⟩ := setValue_other (h := h1) (s := c) (k := .step) (k' := .count) (v := some n) (by decide)
      rw [x, y]; exact o
  | total =>
    simp only [setProp, setTotal] at e
    split at e
    · simp at e
    rename_i h1 e1
    have o := setAttrParam_own e1 (by rw [copy_read (by decide)]; simpa using hne)
    split at e
    · simp at e
    · simp only [Option.some.injEq] at e; exact e ▸ o
    · simp only [Option.map_eq_some_iff] at e
      obtain ⟨n, -, rfl⟩ := e
      obtain ⟨x, y⟩ := setValue_other (h := h1) (s := c) (k := .total) (k' := .count) (v := some n) (by decide)
      rw [x, y]; exact o
  | count =>
    simp only [setProp, setCount] at e
    split at e
    · simp at e
    rename_i h1 e1
    have o := setAttrParam_own e1 (by rw [copy_read (by decide)]; simpa using hne)
    split at e
    · simp at e
    · simp only [Option.some.injEq] at e; exact e ▸ o
    · simp only [Option.map_eq_some_iff] at e
      obtain ⟨n, -, rfl⟩ := e
      obtain ⟨x, y⟩ := setValue_other (h := h1) (s := c) (k := .count) (k' := .step) (v := some n) (by decide)
      rw [x, y]; exact o

/-- C11: once a value other than the current one is assigned on a simulation, it reports that value after any further history
that does not assign the parameter on it, whatever happens to the parent.  (For `delStates` and the initial state the value may
be any; for `stepCount`, computed at every reading, this is the stored value.)  No hierarchy is needed: `h` is any state. -/
theorem C11_override_partial {lim c : Nat} (l2 : List (Cmd V)) (k : Key) (v : V) {h h' : Heap V}
    (w2 : ∀ x ∈ l2, ¬ x.writes c k) (hl : 0 < lim) (hne : k = .delStates ∨ k = .stateInput ∨ read lim h c k ≠ some (some v))
    (e2 : run A lim (.set c k v :: l2) h = some h') : read lim h' c k = some (some v) := by
  unfold run at e2
  split at e2
  · simp at e2
  rename_i h1 e3
  obtain ⟨a, b⟩ := setProp_own A e3 hne
  obtain ⟨x, y⟩ := run_frame A l2 e2 c k w2
  rw [read, readF_own hl (x.trans a)]
  rcases y with y | ⟨t, ht⟩
  · rw [y, b]
  · rw [a] at ht; simp at ht

/-- C11: a time parameter (or the number of samples) assigned on a bound simulation takes it out of the dependents of the simulation
it was bound to; the dependents of all other simulations stay. -/
theorem C11_detached {lim c b : Nat} {k : Key} {v : V} {h h' : Heap V} (hk : k ≠ .delStates) (hk' : k ≠ .stateInput)
    (hb : h.tb c = some b) (e : setProp A lim h c k v = some h') :
    h'.tb c = none ∧ c ∉ h'.dep b ∧ (∀ s, s ≠ c → (s ∈ h'.dep b ↔ s ∈ h.dep b)) ∧ ∀ x, x ≠ b → h'.dep x = h.dep x := by
  have hcopy : ∀ k', (copyFromBound h c k').tb = h.tb ∧ (copyFromBound h c k').dep = h.dep := by
    intro k'
    unfold copyFromBound
    split <;> exact ⟨rfl, rfl⟩
  have hset : ∀ {h1 h2 : Heap V} {k' : Key} {v' : Option V}, h1.tb = h.tb → h1.dep = h.dep →
      setAttrParam lim h1 c k' v' = some h2 →
      h2.tb c = none ∧ c ∉ h2.dep b ∧ (∀ s, s ≠ c → (s ∈ h2.dep b ↔ s ∈ h.dep b)) ∧ ∀ x, x ≠ b → h2.dep x = h.dep x := by
    intro h1 h2 k' v' t d e
    unfold setAttrParam at e
    split at e
    · cases e
    · simp only [Option.some.injEq] at e
      have hbr : breakTime h1 c = { h1 with
          dep := fun x => if x = b then (h1.dep b).filter (· ≠ c) else h1.dep x
          tb := fun x => if x = c then none else h1.tb x } := by
        unfold breakTime
        rw [t, hb]
      have h3 : h2.tb = (breakTime h1 c).tb ∧ h2.dep = (breakTime h1 c).dep := by
        rw [← e]
        split <;> exact ⟨rfl, rfl⟩
      rw [h3.1, h3.2, hbr]
      refine ⟨by simp, by simp, fun s hs => by simp [d, hs], fun x hx => by simp [d, hx]⟩
  have hfin : ∀ {h1 h2 : Heap V} {k' : Key} (o : Option V), (o.map fun n => setValue h1 c k' (some n)) = some h2 →
      h2.tb = h1.tb ∧ h2.dep = h1.dep := by
    intro h1 h2 k' o e
    obtain ⟨n, -, rfl⟩ := Option.map_eq_some_iff.1 e
    exact ⟨rfl, rfl⟩
  cases k with
  | delStates => exact absurd rfl hk
  | stateInput => exact absurd rfl hk'
  | samples => exact hset rfl rfl e
  | total =>
    simp only [setProp, setTotal] at e
    split at e
    · cases e
    rename_i h1 e1
    have := hset (hcopy .step).1 (hcopy .step).2 e1
    split at e
    · cases e
    · cases e; exact this
    · obtain ⟨x, y⟩ := hfin _ e
      rw [x, y]; exact this
  | step =>
    simp only [setProp, setStep] at e
    split at e
    · cases e
    rename_i h1 e1
    have := hset (hcopy .total).1 (hcopy .total).2 e1
    split at e
    · cases e
    · cases e; exact this
    · obtain ⟨x, y⟩ := hfin _ e
      rw [x, y]; exact this
  | count =>
    simp only [setProp, setCount] at e
    split at e
    · cases e
    rename_i h1 e1
    have := hset (hcopy .total).1 (hcopy .total).2 e1
    split at e
    · cases e
    · cases e; exact this
    · obtain ⟨x, y⟩ := hfin _ e
      rw [x, y]; exact this

/-- C12: in a hierarchy of simulations every parameter can be read, and every binding made, after any history: the recursion
ends. -/
theorem C12_terminates_partial {rank : Nat → Nat} {lim : Nat} (one dflt : V) (l : List (Cmd V)) {h : Heap V}
    (d : ∀ x ∈ l, x.Down rank) (e : run A lim l (fresh one dflt) = some h) (s : Nat) (hs : rank s < lim) :
    (∀ k, ∃ v, read lim h s k = some v) ∧ ∃ tree, boundTree h lim s = some tree := by
  have H := (Hier.fresh rank one dflt).run A l d e
  refine ⟨fun k => (readF_stable H k lim s lim lim hs (Nat.le_refl _) (Nat.le_refl _)).1, ?_⟩
  obtain ⟨t, ht, -⟩ := boundTree_some H lim s hs
  exact ⟨t, ht⟩

/-- C12: following the bounds of any parameter never returns to the simulation one started from. -/
theorem C12_acyclic_partial {rank : Nat → Nat} {lim : Nat} (one dflt : V) (l : List (Cmd V)) {h : Heap V}
    (d : ∀ x ∈ l, x.Down rank) (e : run A lim l (fresh one dflt) = some h) (k : Key) (path : Nat → Nat) (n : Nat)
    (hp : ∀ i, i < n → h.bnd (path i) k = .to (path (i + 1))) (hn : 0 < n) : path n ≠ path 0 := by
  have H := (Hier.fresh rank one dflt).run A l d e
  have : ∀ m, m ≤ n → 0 < m → rank (path m) < rank (path 0) := by
    intro m
    induction m with
    | zero => intro _ h0; omega
    | succ m ih =>
      intro hm _
      have s1 := H.bnd _ _ _ (hp m (by omega))
      by_cases h0 : m = 0
      · subst h0; exact s1
      · have := ih (by omega) (by omega); omega
  intro e'
  have := this n (Nat.le_refl _) hn
  rw [e'] at this
  omega

/-! ### Concrete cases and counterexamples -/

/-- Whole time units. -/
def natA : Arith Nat where
  count := fun T dt => if dt = 0 then none else some (T / dt + 1)
  div := fun T n => if n = 0 then none else some (T / n)
  mul := fun n dt => n * dt

/-- Simulation 0, a system's simulation 1 bound to it, a protocol's simulation 2 bound to that. -/
def chain : List (Cmd Nat) :=
  [.bind 1 0 false, .bind 2 1 false, .set 0 .step 2, .set 0 .total 10, .set 1 .samples 5]

example : (run natA 100 chain (fresh 1 0)).bind (fun h => read 100 h 2 .step) = some (some 2) := by decide
example : (run natA 100 (chain ++ [.set 0 .step 5]) (fresh 1 0)).bind (fun h => read 100 h 2 .step) = some (some 5) := by decide
example : (run natA 100 (chain ++ [.set 2 .step 1, .set 0 .step 5]) (fresh 1 0)).bind
    (fun h => read 100 h 2 .step) = some (some 1) := by decide
example : (run natA 100 (chain ++ [.set 2 .step 1]) (fresh 1 0)).bind (fun h => read 100 h 1 .step) = some (some 2) := by decide
example : (run natA 100 chain (fresh 1 0)).bind (fun h => read 100 h 2 .samples) = some (some 5) := by decide

/-- The hypotheses of `C11_follows_partial`, for the protocol at the end of the chain. -/
example (h : Heap Nat) (e : run natA 100 ([.bind 1 0 false] ++ .bind 2 1 false ::
    [.set 0 .step 2, .set 0 .total 10, .set 2 .samples 5, .set 0 .step 5]) (fresh 1 0) = some h) :
    read 100 h 2 .step = read 100 h 1 .step :=
  C11_follows_partial natA (rank := id) 1 0 _ _ .step (by simp [Cmd.Down]) (by decide) (by simp [Cmd.Down]) (by decide)
    (by simp [Cmd.sim]) (by simp [Cmd.writes, keysOf]) e
example : (run natA 100 ([.bind 1 0 false] ++ .bind 2 1 false ::
    [.set 0 .step 2, .set 0 .total 10, .set 2 .samples 5, .set 0 .step 5]) (fresh 1 0)).isSome := by decide

/-- The hypotheses of `C12_terminates_partial`. -/
example (h : Heap Nat) (e : run natA 100 chain (fresh 1 0) = some h) : ∃ v, read 100 h 2 .total = some v :=
  (C12_terminates_partial natA (rank := id) 1 0 chain (by simp [chain, Cmd.Down]) e 2 (by decide)).1 _

/-- C11: binding a simulation with its own step size (and nothing else of its own) to one that has a total time and no number of steps: the
step size stays, the total time is taken over, and the number of steps is computed from the two, whatever the step size of the other. -/
theorem C11_own_step_kept {lim c p : Nat} {h : Heap V} {v T n : V} (hl : 0 < lim) (hne : c ≠ p) (b1 : h.bnd c .step = .broken)
    (v1 : h.val c .step = some v) (b2 : h.bnd c .total = .none) (v2 : h.val c .total = none) (b3 : h.bnd c .count = .none)
    (vp : h.val p .total = some T) (vn : h.val p .count = none) (hn : A.count T v = some n) {tree : List Nat}
    (ht : boundTree h lim p = some tree) (hc : c ∉ tree) :
    ∃ h', exec A lim (.bind c p false) h = some h' ∧ read lim h' c .step = some (some v) ∧ read lim h' c .total = some (some T) ∧
      read lim h' c .count = some (some n) := by
  obtain ⟨l, rfl⟩ : ∃ m, lim = m + 1 := ⟨lim - 1, by omega⟩
  have hne' : p ≠ c := fun e => hne e.symm
  cases hs : h.val p .step <;> by_cases d1 : h.bnd c .delStates = .none <;> by_cases d2 : h.bnd c .stateInput = .none <;>
    by_cases d3 : h.bnd c .samples = .none <;>
    simp [d1, d2, d3, exec, Bound.bind, ht, hc, bindKey, b1, b2, b3, v1, v2, vp, vn, hs, setProp, setStep, setTotal, setAttrParam, copyFromBound, readF,
      breakTime, timeKeys, hne', hn, setValue, putVal, putBnd, rebind, read]

/-- C11 is false: if the other has a number of steps as well, which it always has when its total time and step size were assigned, the own
step size is replaced by the total time divided by the number of steps computed from it. -/
theorem C11_own_step_replaced {lim c p : Nat} {h : Heap V} {v T n m dt : V} (hl : 0 < lim) (hne : c ≠ p) (b1 : h.bnd c .step = .broken)
    (v1 : h.val c .step = some v) (b2 : h.bnd c .total = .none) (v2 : h.val c .total = none) (b3 : h.bnd c .count = .none)
    (vp : h.val p .total = some T) (vn : h.val p .count = some m) (hn : A.count T v = some n) (hd : A.div T n = some dt) {tree : List Nat}
    (ht : boundTree h lim p = some tree) (hc : c ∉ tree) :
    ∃ h', exec A lim (.bind c p false) h = some h' ∧ read lim h' c .step = some (some dt) ∧ read lim h' c .total = some (some T) ∧
      read lim h' c .count = some (some n) := by
  obtain ⟨l, rfl⟩ : ∃ m, lim = m + 1 := ⟨lim - 1, by omega⟩
  have hne' : p ≠ c := fun e => hne e.symm
  cases hs : h.val p .step <;> by_cases d1 : h.bnd c .delStates = .none <;> by_cases d2 : h.bnd c .stateInput = .none <;>
    by_cases d3 : h.bnd c .samples = .none <;>
    simp [d1, d2, d3, exec, Bound.bind, ht, hc, bindKey, b1, b2, b3, v1, v2, vp, vn, hs, setProp, setStep, setTotal, setCount, setAttrParam, copyFromBound,
      readF, breakTime, timeKeys, hne', hn, hd, setValue, putVal, putBnd, rebind, read]

/-- With a total time of 100 and a step size of 7 in the simulation, the own step size 30 of a system becomes 25 when the system is added. -/
theorem C11_own_step_changed :
    (run natA 100 [.set 1 .step 30, .set 0 .step 7, .set 0 .total 100, .bind 1 0 false] (fresh 1 0)).bind
      (fun h => read 100 h 1 .step) = some (some 25) ∧
    (run natA 100 [.set 1 .step 30, .set 0 .total 100, .bind 1 0 false] (fresh 1 0)).bind
      (fun h => read 100 h 1 .step) = some (some 30) := by decide

/-- C11 is false: assigning on the child the value it currently inherits does not make it the child's own; the child still
follows the parent. -/
theorem C11_equal_value_not_overridden :
    (run natA 100 [.bind 1 0 false, .set 0 .step 2, .set 1 .step 2, .set 0 .step 3] (fresh 1 0)).bind
      (fun h => read 100 h 1 .step) = some (some 3) := by decide

/-- C11 is false: binding a simulation with its own step size copies the parent's total time once; the child does not follow
the parent's later changes of the total time although it was never assigned on the child. -/
theorem C11_copied_when_bound :
    (run natA 100 [.set 1 .step 2, .set 0 .total 10, .bind 1 0 false, .set 0 .total 20] (fresh 1 0)).bind
      (fun h => read 100 h 1 .total) = some (some 10) := by decide

/-- C11 is false: reading the number of steps on the child fills in its total time, which then no longer follows the parent. -/
theorem C11_reading_detaches :
    (run natA 100 [.bind 1 0 false, .set 0 .step 2, .set 1 .count 5, .readCount 1, .set 0 .total 40] (fresh 1 0)).bind
      (fun h => read 100 h 1 .total) = some (some 10) := by decide

/-- C13 is false for simulations: a simulation whose number of samples was assigned is out of the dependents of its parent, so it is
not told of a new step size, although its own step size still is the one of the parent. -/
theorem C13_untold_follower :
    (run natA 100 [.bind 1 0 false, .set 1 .samples 5, .set 0 .step 2, .set 0 .step 3] (fresh 1 0)).map
      (fun h => (read 100 h 1 .step, h.dep 0)) = some (some (some 3), []) := by decide

theorem readF_cycle {h : Heap V} {k : Key} (a : h.bnd 0 k = .to 1) (b : h.bnd 1 k = .to 0) :
    ∀ lim, readF h lim 0 k = none ∧ readF h lim 1 k = none := by
  intro lim
  induction lim with
  | zero => exact ⟨rfl, rfl⟩
  | succ l ih => simp only [readF, a, b]; exact ⟨ih.2, ih.1⟩

/-- C12 is false: after the child is bound and its step size assigned, the parent can be bound to the child; the total time of
both then depends on itself, and reading it exceeds every recursion limit. -/
theorem C12_cycle : ∃ h, run natA 100 [.bind 1 0 false, .set 1 .step 2, .bind 0 1 false] (fresh 1 0) = some h ∧
    ∀ lim, read lim h 0 .total = none ∧ read lim h 1 .total = none := by
  refine ⟨_, rfl, ?_⟩
  exact readF_cycle (by decide) (by decide)

/-- C12 is false: a simulation can be bound to itself. -/
theorem C12_self : ∃ h, run natA 100 [.bind 0 0 false] (fresh 1 0) = some h ∧ ∀ lim, read lim h 0 .step = none := by
  refine ⟨_, rfl, ?_⟩
  intro lim
  induction lim with
  | zero => rfl
  | succ l ih => exact ih

end Verif.Bound
