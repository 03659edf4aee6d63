import Verif.Cache.OpenModel

/-!
# C77: the cached propagators of open protocols
-/
namespace Verif.Cache
variable {P V M D : Type} [DecidableEq P] [DecidableEq V]

/-! ### Specification -/

/-- The propagator of a protocol made from scratch: `ds` are the dissipators that act in it, those of its steps are added further down. -/
def scratchO (o : OProg P V M D) (σ : P → V) (ratio : Nat → V) (steps : Nat → List Ref) : Nat → Nat → List D → M
  | 0, _, _ => o.base.alg.one
  | n + 1, i, ds => if o.base.leaf i then o.U i (updated (o.base.upds i) σ) (ratio i) ds
    else (steps i).foldl (fun (acc : M) r => o.base.alg.mul (scratchO o σ ratio steps n r.id (ds ++ o.own r.id)) acc) o.base.alg.one

/-- Every protocol is used in one way only: `ctx j` are the dissipators with which `j` is used wherever it is a step.  (A copy calls
`unitary()` of the protocol, which gives it its own ones twice.) -/
def OneContext (o : OProg P V M D) (steps : Nat → List Ref) (ctx : Nat → List D) : Prop :=
  ∀ i, o.base.leaf i = false → ∀ r ∈ steps i, ctx r.id = ctx i ++ o.own r.id ∧
    match r with | .orig _ => True | .copy j _ => ctx j = o.own j ++ o.own j

/-- The user asks for a protocol in the way it is used. -/
def OCmd.Fits (o : OProg P V M D) (ctx : Nat → List D) : OCmd P V → Prop
  | .assign _ _ => True
  | .unitary i => ctx i = o.own i ++ o.own i
  | .getUnitary i => ctx i = o.own i

/-! ### Open protocols used in one way behave like closed ones -/

/-- Closed protocols with the given propagators. -/
def OProg.fix (o : OProg P V M D) (ctx : Nat → List D) : Prog P V M := { o.base with U := fun i σ r => o.U i σ r (ctx i) }

section
variable (o : OProg P V M D) (ctx : Nat → List D)

theorem fix_eff : ∀ (lim i : Nat) (st : St P V M), eff (o.fix ctx) lim i st = eff o.base lim i st := by
  intro lim
  induction lim with
  | zero => intro i st; rfl
  | succ lim ih =>
    intro i st
    have : eff (o.fix ctx) lim = eff o.base lim := funext fun i => funext fun st => ih i st
    unfold eff
    rw [this]
    rfl

theorem fix_puGet (lim : Nat) : ∀ (rs : List Ref) (st : St P V M), puGet (o.fix ctx) lim rs st = puGet o.base lim rs st := by
  intro rs
  induction rs with
  | nil => intro st; rfl
  | cons r rs ih =>
    intro st
    unfold puGet
    rw [fix_eff]
    cases eff o.base lim r.id st with
    | none => rfl
    | some x => dsimp only; rw [ih]

theorem fix_clear : ∀ (lim i : Nat) (st : St P V M), clear (o.fix ctx) lim i st = clear o.base lim i st := by
  intro lim
  induction lim with
  | zero => intro i st; rfl
  | succ lim ih =>
    intro i st
    have : clear (o.fix ctx) lim = clear o.base lim := funext fun i => funext fun st => ih i st
    unfold clear
    rw [this]
    rfl

theorem fix_runUpdate (ps : List P) (v : V) (st : St P V M) : runUpdate (o.fix ctx) ps v st = runUpdate o.base ps v st := rfl

theorem fix_setups : ∀ (us : List (Upd P V)) (st : St P V M), setups (o.fix ctx) us st = setups o.base us st := by
  intro us
  induction us with
  | nil => intro st; rfl
  | cons u us ih =>
    intro st
    unfold setups
    have : setup (o.fix ctx) u st = setup o.base u st := rfl
    rw [this]
    cases setup o.base u st with
    | none => rfl
    | some x => dsimp only; rw [ih]

theorem fix_setbacks : ∀ (us : List (Upd P V)) (ms : List V) (st : St P V M), setbacks (o.fix ctx) us ms st = setbacks o.base us ms st := by
  intro us
  induction us with
  | nil => intro ms st; rfl
  | cons u us ih =>
    intro ms st
    cases ms with
    | nil => rfl
    | cons m ms =>
      unfold setbacks
      rw [ih]
      rfl

theorem fix_unitaryOf (lim : Nat) (g : Nat → St P V M → Option (Option M × St P V M)) (i : Nat) (st : St P V M) :
    unitaryOf (o.fix ctx) lim g i st = unitaryOf o.base lim g i st := by
  unfold unitaryOf
  rw [fix_eff]
  rfl

end

/-! ### Steps do not change -/

theorem foldl_steps {α : Type} (f : St P V M → α → St P V M) (hf : ∀ st a, (f st a).steps = st.steps) : ∀ (l : List α) (st : St P V M),
    (l.foldl f st).steps = st.steps := by
  intro l
  induction l with
  | nil => intro st; rfl
  | cons a l ih => intro st; rw [List.foldl_cons, ih, hf]

theorem runUpdate_steps (pr : Prog P V M) (ps : List P) (v : V) (st : St P V M) : (runUpdate pr ps v st).steps = st.steps :=
  foldl_steps _ (fun st p => (assign_rest pr p v st).2.1) ps st

theorem setups_steps (pr : Prog P V M) : ∀ (us : List (Upd P V)) (st : St P V M) (ms : List V) (st' : St P V M),
    setups pr us st = some (ms, st') → st'.steps = st.steps := by
  intro us
  induction us with
  | nil => intro st ms st' e; simp only [setups, Option.some.injEq, Prod.mk.injEq] at e; rw [← e.2]
  | cons u us ih =>
    intro st ms st' e
    unfold setups at e
    split at e
    · simp at e
    rename_i m st1 e1
    split at e
    · simp at e
    rename_i ms2 st2 e2
    simp only [Option.some.injEq, Prod.mk.injEq] at e
    rw [← e.2, ih _ _ _ e2]
    unfold setup at e1
    split at e1
    · simp at e1
    · simp only [Option.some.injEq, Prod.mk.injEq] at e1
      rw [← e1.2, runUpdate_steps]

theorem setbacks_steps (pr : Prog P V M) : ∀ (us : List (Upd P V)) (ms : List V) (st : St P V M), (setbacks pr us ms st).steps = st.steps := by
  intro us
  induction us with
  | nil => intro ms st; rfl
  | cons u us ih =>
    intro ms st
    cases ms with
    | nil => rfl
    | cons m ms =>
      unfold setbacks
      rw [ih]
      unfold setback
      split
      · rw [runUpdate_steps]
      · rfl

theorem puSet_steps : ∀ (rs : List Ref) (bs : List Bool) (st : St P V M), (puSet rs bs st).steps = st.steps := by
  intro rs
  induction rs with
  | nil => intro bs st; rfl
  | cons r rs ih =>
    intro bs st
    cases bs with
    | nil => cases r <;> rfl
    | cons b bs => cases r <;> (unfold puSet; rw [ih]; try rfl)

theorem unitaryOf_steps {pr : Prog P V M} {lim : Nat} {g : Nat → St P V M → Option (Option M × St P V M)}
    (hg : ∀ i st r st', g i st = some (r, st') → st'.steps = st.steps) (i : Nat) (st : St P V M) (r : Option M) (st' : St P V M)
    (e : unitaryOf pr lim g i st = some (r, st')) : st'.steps = st.steps := by
  unfold unitaryOf at e
  split at e
  · simp at e
  rename_i b st1 e1
  have h1 := (eff_spec pr _ lim _ _ _ _ rfl e1).1.same.steps
  have fin : ∀ (x : Option (Option M × St P V M)), x = g i st1 → (match x with
      | none => none
      | some (m, st) => let st := setMat st i m; some (st.mat i, st)) = some (r, st') → st'.steps = st1.steps := by
    intro x hx e
    cases x with
    | none => simp at e
    | some y =>
      simp only [Option.some.injEq, Prod.mk.injEq] at e
      rw [← e.2]
      exact hg i st1 y.1 y.2 hx.symm
  split at e
  · split at e
    · simp only [Option.some.injEq, Prod.mk.injEq] at e; rw [← e.2, h1]
    · rw [fin _ rfl e, h1]
  · split at e
    · simp only [Option.some.injEq, Prod.mk.injEq] at e; rw [← e.2, h1]
    · rw [fin _ rfl e, h1]

theorem getRef_steps {pr : Prog P V M} {lim : Nat} {g : Nat → St P V M → Option (Option M × St P V M)}
    (hg : ∀ i st r st', g i st = some (r, st') → st'.steps = st.steps) (q : Ref) (st : St P V M) (r : Option M) (st' : St P V M)
    (e : getRef pr lim g q st = some (r, st')) : st'.steps = st.steps := by
  unfold getRef at e
  split at e
  · exact hg _ _ _ _ e
  · split at e
    · simp at e
    rename_i m st1 e1
    have h1 := unitaryOf_steps hg _ _ _ _ e1
    split at e
    · split at e
      · simp at e
      rename_i h st2 e2
      simp only [Option.some.injEq, Prod.mk.injEq] at e
      rw [← e.2, ← h1]
      unfold hcOf at e2
      split at e2
      · simp only [Option.some.injEq, Prod.mk.injEq] at e2; rw [← e2.2]
      · split at e2
        · simp at e2
        · simp only [Option.some.injEq, Prod.mk.injEq] at e2; rw [← e2.2]
    · simp only [Option.some.injEq, Prod.mk.injEq] at e
      rw [← e.2, h1]

theorem createLoop_steps {pr : Prog P V M} {lim : Nat} {g : Nat → St P V M → Option (Option M × St P V M)}
    (hg : ∀ i st r st', g i st = some (r, st') → st'.steps = st.steps) : ∀ (rs : List Ref) (acc : M) (st : St P V M) (m : M) (st' : St P V M),
    createLoop pr lim g rs acc st = some (m, st') → st'.steps = st.steps := by
  intro rs
  induction rs with
  | nil => intro acc st m st' e; simp only [createLoop, Option.some.injEq, Prod.mk.injEq] at e; rw [← e.2]
  | cons r rs ih =>
    intro acc st m st' e
    unfold createLoop at e
    split at e
    · simp at e
    rename_i bs st1 e1
    split at e
    · rename_i u st2 e2
      rw [ih _ _ _ _ e, puSet_steps, getRef_steps hg _ _ _ _ e2]
      exact (puGet_spec pr _ lim _ _ _ _ rfl e1).1.same.steps
    · simp at e

theorem getU_steps (pr : Prog P V M) : ∀ (lim i : Nat) (st : St P V M) (r : Option M) (st' : St P V M),
    getU pr lim i st = some (r, st') → st'.steps = st.steps := by
  intro lim
  induction lim with
  | zero => intro i st r st' e; simp [getU] at e
  | succ lim ih =>
    intro i st r st' e
    unfold getU at e
    split at e
    · simp at e
    rename_i ms st1 e1
    split at e
    · simp at e
    rename_i m st2 e2
    split at e
    · simp at e
    rename_i st3 e3
    simp only [Option.some.injEq, Prod.mk.injEq] at e
    rw [← e.2, (clear_spec pr _ lim _ _ _ rfl e3).1.steps, setbacks_steps]
    rw [show (setMat st2 i m).steps = st2.steps from rfl, ← setups_steps pr _ _ _ _ e1]
    unfold defGet at e2
    split at e2
    · simp at e2
    rename_i b st4 e4
    rw [← (eff_spec pr _ lim _ _ _ _ rfl e4).1.same.steps]
    split at e2
    · split at e2
      · simp at e2
      rename_i u st5 e5
      simp only [Option.some.injEq, Prod.mk.injEq] at e2
      rw [← e2.2, show ∀ x, (setMat st5 i x).steps = st5.steps from fun _ => rfl]
      unfold create at e5
      split at e5
      · simp only [Option.some.injEq, Prod.mk.injEq] at e5; rw [← e5.2]
      · exact createLoop_steps (fun i st r st' => ih i st r st') _ _ _ _ _ e5
    · simp only [Option.some.injEq, Prod.mk.injEq] at e2; rw [← e2.2]

/-! ### The refinement -/

section
variable {o : OProg P V M D} {ctx : Nat → List D} {steps : Nat → List Ref} (hc : OneContext o steps ctx)
include hc

theorem getUO_eq : ∀ (lim i : Nat) (a : Option (List D)) (st : St P V M), st.steps = steps → given (o.own i) a = ctx i →
    getUO o lim i a st = getU (o.fix ctx) lim i st := by
  intro lim
  induction lim with
  | zero => intro i a st _ _; rfl
  | succ lim ih =>
    intro i a st hs ha
    have uni : ∀ (j : Nat) (st : St P V M), st.steps = steps → ctx j = o.own j ++ o.own j →
        unitaryOf o.base lim (fun k st => getUO o lim k (some (o.own k)) st) j st = unitaryOf (o.fix ctx) lim (getU (o.fix ctx) lim) j st := by
      intro j st hs hj
      rw [fix_unitaryOf]
      unfold unitaryOf
      cases e : eff o.base lim j st with
      | none => rfl
      | some x =>
        obtain ⟨b, st1⟩ := x
        have h1 := (eff_spec o.base _ lim _ _ _ _ rfl e).1.same.steps
        dsimp only
        rw [ih j (some (o.own j)) st1 (h1.trans hs) (by rw [given, hj])]
    have ref : ∀ (r : Ref) (st : St P V M), st.steps = steps → ctx r.id = ctx i ++ o.own r.id →
        (match r with | .orig _ => True | .copy j _ => ctx j = o.own j ++ o.own j) →
        getRefO o lim (getUO o lim) (ctx i) r st = getRef (o.fix ctx) lim (getU (o.fix ctx) lim) r st := by
      intro r st hs hr hr2
      cases r with
      | orig j => exact ih j (some (ctx i)) st hs (by rw [given]; exact hr.symm)
      | copy j b =>
        unfold getRefO getRef
        dsimp only
        rw [uni j st hs hr2]
        rfl
    have loop : ∀ (rs : List Ref), (∀ r ∈ rs, ctx r.id = ctx i ++ o.own r.id ∧
        match r with | .orig _ => True | .copy j _ => ctx j = o.own j ++ o.own j) → ∀ (acc : M) (st : St P V M), st.steps = steps →
        createLoopO o lim (getUO o lim) (ctx i) rs acc st = createLoop (o.fix ctx) lim (getU (o.fix ctx) lim) rs acc st := by
      intro rs
      induction rs with
      | nil => intro _ acc st _; rfl
      | cons r rs ihr =>
        intro hr acc st hs
        unfold createLoopO createLoop
        rw [fix_puGet]
        cases e : puGet o.base lim rs st with
        | none => rfl
        | some x =>
          obtain ⟨bs, st1⟩ := x
          have h1 := (puGet_spec o.base _ lim _ _ _ _ rfl e).1.same.steps.trans hs
          dsimp only
          rw [ref r st1 h1 (hr r (by simp)).1 (hr r (by simp)).2]
          cases e2 : getRef (o.fix ctx) lim (getU (o.fix ctx) lim) r st1 with
          | none => rfl
          | some y =>
            obtain ⟨u, st2⟩ := y
            cases u with
            | none => rfl
            | some u =>
              dsimp only
              have h2 := getRef_steps (fun i st r st' => getU_steps _ lim i st r st') _ _ _ _ e2
              exact ihr (fun r h => hr r (by simp [h])) _ _ (by rw [puSet_steps, h2, h1])
    unfold getUO getU
    rw [fix_setups, ha, show (o.fix ctx).upds = o.base.upds from rfl]
    cases e : setups o.base (o.base.upds i) st with
    | none => rfl
    | some x =>
      obtain ⟨ms, st1⟩ := x
      have h1 := (setups_steps _ _ _ _ _ e).trans hs
      dsimp only
      have hd : defGetO o lim (getUO o lim) (ctx i) i st1 = defGet (o.fix ctx) lim (getU (o.fix ctx) lim) i st1 := by
        unfold defGetO defGet
        rw [fix_eff]
        cases e2 : eff o.base lim i st1 with
        | none => rfl
        | some y =>
          obtain ⟨b, st2⟩ := y
          have h2 := (eff_spec o.base _ lim _ _ _ _ rfl e2).1.same.steps.trans h1
          have hcr : createO o lim (getUO o lim) (ctx i) i st2 = create (o.fix ctx) lim (getU (o.fix ctx) lim) i st2 := by
            unfold createO create
            by_cases hl : o.base.leaf i = true
            · rw [if_pos hl, if_pos (show (o.fix ctx).leaf i = true from hl)]
              rfl
            · rw [if_neg hl, if_neg (show ¬ (o.fix ctx).leaf i = true from hl)]
              exact loop _ (fun r hr => hc i (not_leaf hl) r (by rw [← h2]; exact hr)) _ _ h2
          dsimp only
          rw [hcr]
          rfl
      rw [hd]
      cases defGet (o.fix ctx) lim (getU (o.fix ctx) lim) i st1 with
      | none => rfl
      | some y =>
        obtain ⟨m, st2⟩ := y
        dsimp only
        rw [fix_setbacks, fix_clear]
        rfl

theorem unitaryO_eq (lim i : Nat) (st : St P V M) (hs : st.steps = steps) (hi : ctx i = o.own i ++ o.own i) :
    unitaryO o lim i st = unitary (o.fix ctx) lim i st := by
  unfold unitaryO unitary
  rw [fix_unitaryOf]
  unfold unitaryOf
  cases e : eff o.base lim i st with
  | none => rfl
  | some x =>
    obtain ⟨b, st1⟩ := x
    have h1 := (eff_spec o.base _ lim _ _ _ _ rfl e).1.same.steps
    dsimp only
    rw [getUO_eq hc lim i (some (o.own i)) st1 (h1.trans hs) (by rw [given, hi])]

end

/-- The dependency table is complete, and protocols do not contain themselves. -/
structure OCovers (o : OProg P V M D) (steps : Nat → List Ref) (rank : Nat → Nat) : Prop where
  leafDep : ∀ i, o.base.leaf i = true → ∀ (σ τ : P → V) (r : V) (ds : List D), (∀ p, o.base.marks p i = true → σ p = τ p) →
    o.U i σ r ds = o.U i τ r ds
  closed : ∀ i, o.base.leaf i = false → ∀ r ∈ steps i, ∀ p, o.base.marks p r.id = true → o.base.marks p i = true
  rank : ∀ i, o.base.leaf i = false → ∀ r ∈ steps i, rank r.id < rank i

theorem fix_covers {o : OProg P V M D} {ctx : Nat → List D} {steps : Nat → List Ref} {rank : Nat → Nat} (C : OCovers o steps rank) :
    Covers (o.fix ctx) steps rank := ⟨fun i hl σ τ r h => C.leafDep i hl σ τ r (ctx i) h, C.closed, C.rank⟩

theorem fix_tame {o : OProg P V M D} {ctx : Nat → List D} {steps : Nat → List Ref} (T : Tame o.base steps) : Tame (o.fix ctx) steps :=
  ⟨T.notFixed, T.updLeaf, T.updOne, T.noHc⟩

/-- The corresponding command. -/
def OCmd.closed : OCmd P V → Cmd P V
  | .assign p v => .assign p v
  | .unitary i => .unitary i
  | .getUnitary i => .getUnitary i

theorem runO_eq {o : OProg P V M D} {ctx : Nat → List D} {steps : Nat → List Ref} (hc : OneContext o steps ctx) {lim : Nat} :
    ∀ (l : List (OCmd P V)), (∀ c ∈ l, c.Fits o ctx) → ∀ st : St P V M, st.steps = steps →
      runO o lim l st = run (o.fix ctx) lim (l.map OCmd.closed) st := by
  intro l
  induction l with
  | nil => intro _ st _; rfl
  | cons c l ih =>
    intro hl st hs
    have hcf := hl c (by simp)
    have hex : execO o lim c st = exec (o.fix ctx) lim c.closed st := by
      cases c with
      | assign p v => rfl
      | unitary i => simp only [execO, exec, OCmd.closed, unitaryO_eq hc lim i st hs hcf]
      | getUnitary i => simp only [execO, exec, OCmd.closed, getUO_eq hc lim i none st hs hcf.symm]
    rw [List.map_cons, runO, run, hex]
    cases e : exec (o.fix ctx) lim c.closed st with
    | none => rfl
    | some st1 =>
      dsimp only
      apply ih (fun c h => hl c (by simp [h]))
      rw [← hs]
      cases c with
      | assign p v =>
        simp only [exec, OCmd.closed, Option.some.injEq] at e
        rw [← e]
        exact (assign_rest _ p v st).2.1
      | unitary i =>
        simp only [exec, OCmd.closed, Option.map_eq_some_iff] at e
        obtain ⟨⟨r, st2⟩, e, rfl⟩ := e
        exact unitaryOf_steps (fun i st r st' => getU_steps _ lim i st r st') _ _ _ _ e
      | getUnitary i =>
        simp only [exec, OCmd.closed, Option.map_eq_some_iff] at e
        obtain ⟨⟨r, st2⟩, e, rfl⟩ := e
        exact getU_steps _ _ _ _ _ _ e

theorem scratchO_eq {o : OProg P V M D} {ctx : Nat → List D} {steps : Nat → List Ref} (hc : OneContext o steps ctx) (st : St P V M)
    (hs : st.steps = steps) : ∀ (n i : Nat), scratchF (o.fix ctx) st n i = scratchO o st.σ st.ratio steps n i (ctx i) := by
  intro n
  induction n with
  | zero => intro i; rfl
  | succ n ih =>
    intro i
    unfold scratchF scratchO
    by_cases hl : o.base.leaf i = true
    · rw [if_pos hl, if_pos (show (o.fix ctx).leaf i = true from hl)]
      rfl
    · rw [if_neg hl, if_neg (show ¬ (o.fix ctx).leaf i = true from hl), hs]
      apply foldl_congr_mem
      intro r hr acc
      rw [ih, (hc i (not_leaf hl) r hr).1]
      rfl

/-! ### The theorems -/

/-- C77: after any history of assignments and calls in which every protocol is used with one list of dissipators only, `unitary()` is the
propagator made from scratch from the current parameters: its own dissipators (twice, C53) and those of the protocols on the way act on
each step, at any depth. -/
theorem C77_current_partial {o : OProg P V M D} {ctx : Nat → List D} {steps : Nat → List Ref} {rank : Nat → Nat} (T : Tame o.base steps)
    (C : OCovers o steps rank) (hc : OneContext o steps ctx) (σ : P → V) (ratio : Nat → V) (lim : Nat) (l : List (OCmd P V))
    (hl : ∀ c ∈ l, c.Fits o ctx) (st : St P V M) (e : runO o lim l (init σ ratio steps) = some st) (i : Nat) (hi : rank i + 1 < lim)
    (ht : ctx i = o.own i ++ o.own i) :
    ∃ st', unitaryO o lim i st = some (some (scratchO o st.σ ratio steps (rank i + 1) i (o.own i ++ o.own i)), st') ∧ st'.σ = st.σ := by
  rw [runO_eq hc l hl _ rfl] at e
  have hp : ∀ c ∈ l.map OCmd.closed, c.Plain := by
    intro c hcm
    obtain ⟨c, -, rfl⟩ := List.mem_map.1 hcm
    cases c <;> exact trivial
  obtain ⟨hs, hr, -⟩ := run_inv (fix_tame (ctx := ctx) T) (fix_covers (ctx := ctx) C) _ hp _ _ rfl
    (fun val _ => init_inv (o.fix ctx) σ ratio steps val) e
  obtain ⟨val, st', hv, e1, e2⟩ := C14_current_partial (fix_tame (ctx := ctx) T) (fix_covers C) σ ratio lim _ hp st e i hi
  refine ⟨st', ?_, e2⟩
  have H : ∀ i, (o.fix ctx).leaf i = false → ∀ r ∈ st.steps i, rank r.id < rank i := fun i hl r hr => C.rank i hl r (hs ▸ hr)
  rw [unitaryO_eq hc lim i st hs ht, e1, fromScratch_unique H (scratchF_fromScratch H) hv (rank i + 1) i (by omega),
    scratchO_eq hc st hs, ht, hr]
  rfl

/-! ### Findings: protocols used in two ways -/

/-- Propagators written out: which leaf was exponentiated with which dissipators, the last one first. -/
def openTrace : Alg (List (Nat × List Nat)) where
  mul := fun a b => a ++ b
  one := []
  conj := fun a => a
  mul_one := fun a => List.append_nil a

/-- Protocol 0 is an evolution, the others have steps; any assignment marks all. -/
def openDemo (own : Nat → List Nat) : OProg Nat Nat (List (Nat × List Nat)) Nat where
  base := { alg := openTrace, leaf := fun i => i == 0, U := fun _ _ _ => [], marks := fun _ _ => true, upds := fun _ => [], fixed := fun _ => false }
  own := own
  U := fun i _ _ ds => [(i, ds)]

/-- The propagator returned by `unitary()` of `i` after a history. -/
def openAnswer (own : Nat → List Nat) (steps : Nat → List Ref) (l : List (OCmd Nat Nat)) (i : Nat) : Option (List (Nat × List Nat)) :=
  match runO (openDemo own) 10 l (init (fun _ => 0) (fun _ => 1) steps) with
  | none => none
  | some st => match unitaryO (openDemo own) 10 i st with | none => none | some (m, _) => m

/-- `getUnitary()` and `unitary()` of the same evolution share one cache but mean different propagators: after `getUnitary()` the rate in
`unitary()` is the given one, without it is twice as large. -/
theorem C77_getUnitary_before :
    openAnswer (fun _ => [5]) (fun _ => []) [] 0 = some [(0, [5, 5])] ∧
    openAnswer (fun _ => [5]) (fun _ => []) [.getUnitary 0] 0 = some [(0, [5])] := by decide +kernel

/-- A step that is also run on its own: the dissipator 7 belongs to the protocol around it.  Asked after the protocol, the step has the
dissipator of the protocol; asked before it, the protocol loses its dissipator. -/
theorem C77_step_asked :
    openAnswer (fun i => if i = 1 then [7] else []) (fun i => if i = 1 then [.orig 0] else []) [] 0 = some [(0, [])] ∧
    openAnswer (fun i => if i = 1 then [7] else []) (fun i => if i = 1 then [.orig 0] else []) [.unitary 1] 0 = some [(0, [7, 7])] ∧
    openAnswer (fun i => if i = 1 then [7] else []) (fun i => if i = 1 then [.orig 0] else []) [] 1 = some [(0, [7, 7])] ∧
    openAnswer (fun i => if i = 1 then [7] else []) (fun i => if i = 1 then [.orig 0] else []) [.unitary 0] 1 = some [(0, [])] := by
  decide +kernel

/-- A step of two protocols is a copy in the second one: the dissipators of the second protocol never act in it. -/
theorem C77_second_protocol :
    openAnswer (fun i => if i = 2 then [7] else []) (fun i => if i = 1 then [.orig 0] else if i = 2 then [.copy 0 false] else []) [] 2 =
      some [(0, [])] := by decide +kernel

/-- A dissipator added to an evolution whose propagator was asked before is ignored (`addToProtocol`, `environment.py:84-86`, marks
nothing) until some parameter is assigned. -/
theorem C77_added_later : ∃ st, runO (openDemo fun _ => [5]) 10 [.unitary 0] (init (fun _ => 0) (fun _ => 1) fun _ => []) = some st ∧
    (unitaryO (openDemo fun _ => [5, 6]) 10 0 st).map Prod.fst = some (some [(0, [5, 5])]) ∧
    (unitaryO (openDemo fun _ => [5, 6]) 10 0 (assign (openDemo fun _ => [5, 6]).base 0 1 st)).map Prod.fst = some (some [(0, [5, 6, 5, 6])]) := by
  have h1 : ((runO (openDemo fun _ => [5]) 10 [.unitary 0] (init (fun _ => 0) (fun _ => 1) fun _ => [])).bind fun st =>
      (unitaryO (openDemo fun _ => [5, 6]) 10 0 st).map Prod.fst) = some (some [(0, [5, 5])]) := by decide +kernel
  have h2 : ((runO (openDemo fun _ => [5]) 10 [.unitary 0] (init (fun _ => 0) (fun _ => 1) fun _ => [])).bind fun st =>
      (unitaryO (openDemo fun _ => [5, 6]) 10 0 (assign (openDemo fun _ => [5, 6]).base 0 1 st)).map Prod.fst) = some (some [(0, [5, 6, 5, 6])]) := by
    decide +kernel
  cases e : runO (openDemo fun _ => [5]) 10 [.unitary 0] (init (fun _ => 0) (fun _ => 1) fun _ => []) with
  | none => rw [e] at h1; simp at h1
  | some st =>
    rw [e, Option.bind_some] at h1 h2
    exact ⟨st, rfl, h1, h2⟩

/-- A protocol with a dissipator (7) and two levels of steps, one of which has a dissipator (8) itself; used, changed and asked again. -/
example (own : Nat → List Nat) (h : own = fun i => if i = 3 then [7] else if i = 2 then [8] else []) :
    ∃ st st', runO (openDemo own) 20 [.unitary 3, .assign 0 1, .unitary 3, .assign 4 2]
        (init (fun _ => 0) (fun _ => 1) fun i => if i = 3 then [.orig 2] else if i = 2 then [.orig 0] else []) = some st ∧
      unitaryO (openDemo own) 20 3 st = some (some [(0, [7, 7, 8])], st') := by
  subst h
  have hd : ((runO (openDemo fun i => if i = 3 then [7] else if i = 2 then [8] else []) 20
      [.unitary 3, .assign 0 1, .unitary 3, .assign 4 2]
      (init (fun _ => 0) (fun _ => 1) fun i => if i = 3 then [.orig 2] else if i = 2 then [.orig 0] else [])).isSome) = true := by
    decide +kernel
  obtain ⟨st, e⟩ := Option.isSome_iff_exists.1 hd
  obtain ⟨st', e2, -⟩ := C77_current_partial (o := openDemo fun i => if i = 3 then [7] else if i = 2 then [8] else [])
    (ctx := fun i => if i = 3 then [7, 7] else if i = 2 then [7, 7, 8] else [7, 7, 8])
    (rank := fun i => if i = 3 then 2 else if i = 2 then 1 else 0)
    ⟨fun _ => rfl, fun _ _ => rfl, fun _ => ⟨[], rfl, List.nodup_nil⟩, by
      intro i j
      by_cases h3 : i = 3
      · simp [h3]
      · by_cases h2 : i = 2 <;> simp [h3, h2]⟩
    ⟨fun _ _ _ _ _ _ _ => rfl, fun _ _ _ _ _ _ => rfl, by
      intro i _ r hr
      try dsimp only at hr ⊢
      split at hr
      · simp at hr; subst hr; simp [Ref.id, *]
      · split at hr
        · simp at hr; subst hr; simp [Ref.id, *]
        · simp at hr⟩
    (by
      intro i _ r hr
      try dsimp only at hr ⊢
      split at hr
      · simp at hr; subst hr; simp [Ref.id, *, openDemo]
      · split at hr
        · simp at hr; subst hr; simp [Ref.id, *, openDemo]
        · simp at hr)
    (fun _ => 0) (fun _ => 1) 20 _ (by simp [OCmd.Fits, openDemo]) st e 3 (by simp) rfl
  exact ⟨st, st', e, e2⟩

end Verif.Cache
