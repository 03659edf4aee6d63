import Verif.Cache.Stable
/-!
# C14, C15, C17, C19, C20: conjugates, fixed protocols, updates, and where the caches go wrong
-/
namespace Verif.Cache
variable {P V M : Type} [DecidableEq P] [DecidableEq V]

/-! ### C17: Hermitian conjugates -/

/-- `copyStep.unitary()` (`QPro.py:376-378`). -/
def copyUnitary (pr : Prog P V M) (lim : Nat) (i : Nat) (hc : Bool) (st : St P V M) : Option (Option M × St P V M) :=
  getRef pr lim (getU pr lim) (.copy i hc) st

/-- C17: the first use of the conjugate of a step gives the conjugate of its current unitary: after any history of assignments and
calls in which no conjugate is used.  Later uses: `C17_stale`. -/
theorem C17_first_partial {pr : Prog P V M} {steps : Nat → List Ref} {rank : Nat → Nat} (T : Tame pr steps)
    (C : Covers pr steps rank) (σ : P → V) (ratio : Nat → V) (lim : Nat) (l : List (Cmd P V)) (hl : ∀ c ∈ l, c.Plain)
    (st : St P V M) (e : run pr lim l (init σ ratio steps) = some st) (i : Nat) (hi : rank i + 1 < lim) :
    ∃ u st' st'', unitary pr lim i st = some (some u, st') ∧ copyUnitary pr lim i true st = some (some (pr.alg.conj u), st'') := by
  obtain ⟨val, st', hv, e1, -⟩ := C14_current_partial T C σ ratio lim l hl st e i hi
  have nohc : ∀ j, ¬ HcStep steps j := fun j ⟨k, hk⟩ => T.noHc k j hk
  have key : ∀ (l : List (Cmd P V)), (∀ c ∈ l, c.Plain) → ∀ (st st' : St P V M), st.steps = steps → st.hcm i = none →
      run pr lim l st = some st' → st'.steps = steps ∧ st'.hcm i = none := by
    intro l
    induction l with
    | nil =>
      intro _ st st' hs h e
      simp only [run, Option.some.injEq] at e
      subst e
      exact ⟨hs, h⟩
    | cons c l ih =>
      intro hl st st' hs h e
      unfold run at e
      split at e
      · simp at e
      rename_i st1 e1
      have fin : Keep pr steps st st1 → st'.steps = steps ∧ st'.hcm i = none := by
        intro k
        refine ih (fun c hc => hl c (by simp [hc])) st1 st' (k.steps.trans hs) ?_ e
        rcases k.hcm i with h' | ⟨-, h'⟩
        · rw [h', h]
        · exact absurd h' (nohc i)
      cases c with
      | assign p v =>
        simp only [exec, Option.some.injEq] at e1
        subst e1
        exact fin (assign_shift pr p v st).keep
      | unitary j =>
        simp only [exec, Option.map_eq_some_iff] at e1
        obtain ⟨⟨r, st2⟩, e2, rfl⟩ := e1
        exact fin (unitaryOf_keep (fun i st r st' a b => getU_keep lim i st r st' a b) j st r st2 hs e2).2
      | getUnitary j =>
        simp only [exec, Option.map_eq_some_iff] at e1
        obtain ⟨⟨r, st2⟩, e2, rfl⟩ := e1
        exact fin (getU_keep lim j st r st2 hs e2).2
      | setRatio i v => exact absurd (hl (.setRatio i v) (by simp)) (by simp [Cmd.Plain])
      | addStep i r => exact absurd (hl (.addStep i r) (by simp)) (by simp [Cmd.Plain])
      | prepare i => exact absurd (hl (.prepare i) (by simp)) (by simp [Cmd.Plain])
  obtain ⟨hs, h0⟩ := key l hl _ _ rfl rfl e
  obtain ⟨hm, k⟩ := unitaryOf_keep (fun i st r st' a b => getU_keep lim i st r st' a b) i st _ st' hs e1
  have h1 : st'.hcm i = none := by
    rcases k.hcm i with h' | ⟨-, h'⟩
    · rw [h', h0]
    · exact absurd h' (nohc i)
  refine ⟨val i, st', { st' with hcm := fun j => if j = i then some (pr.alg.conj (val i)) else st'.hcm j }, e1, ?_⟩
  unfold copyUnitary getRef
  dsimp only
  have e1' : unitaryOf pr lim (getU pr lim) i st = some (some (val i), st') := e1
  rw [e1']
  simp only [if_true, hcOf, h1, ← hm]

/-- A history of anything, with the uses of conjugates among it. -/
theorem run_keep {pr : Prog P V M} {lim : Nat} : ∀ (l : List (Cmd P V)) (st st' : St P V M), run pr lim l st = some st' →
    (∀ j h, st.hcm j = some h → st'.hcm j = some h) ∧
    (∀ j m, pr.fixed j = true → st.mat j = some m → st'.mat j = some m) := by
  intro l
  induction l with
  | nil =>
    intro st st' e
    simp only [run, Option.some.injEq] at e
    subst e
    exact ⟨fun _ _ h => h, fun _ _ _ h => h⟩
  | cons c l ih =>
    intro st st' e
    unfold run at e
    split at e
    · simp at e
    rename_i st1 e1
    obtain ⟨a1, a2⟩ := ih st1 st' e
    have fin : ∀ steps, Keep pr steps st st1 → (∀ j h, st.hcm j = some h → st'.hcm j = some h) ∧
        (∀ j m, pr.fixed j = true → st.mat j = some m → st'.mat j = some m) := by
      intro steps k
      refine ⟨fun j h hh => a1 j h ?_, fun j m hf hm => a2 j m hf (k.mat j m hf hm)⟩
      rcases k.hcm j with h' | ⟨h', -⟩
      · rw [h', hh]
      · rw [h'] at hh; simp at hh
    cases c with
    | assign p v =>
      simp only [exec, Option.some.injEq] at e1
      subst e1
      exact fin st.steps (assign_shift pr p v st).keep
    | unitary j =>
      simp only [exec, Option.map_eq_some_iff] at e1
      obtain ⟨⟨r, st2⟩, e2, rfl⟩ := e1
      exact fin st.steps (unitaryOf_keep (fun i st r st' a b => getU_keep lim i st r st' a b) j st r st2 rfl e2).2
    | getUnitary j =>
      simp only [exec, Option.map_eq_some_iff] at e1
      obtain ⟨⟨r, st2⟩, e2, rfl⟩ := e1
      exact fin st.steps (getU_keep lim j st r st2 rfl e2).2
    | setRatio i v =>
      simp only [exec, Option.some.injEq] at e1
      subst e1
      exact ⟨fun j h hh => a1 j h hh, fun j m hf hm => a2 j m hf hm⟩
    | addStep i r =>
      simp only [exec, Option.some.injEq] at e1
      subst e1
      exact ⟨fun j h hh => a1 j h hh, fun j m hf hm => a2 j m hf hm⟩
    | prepare i => exact fin st.steps (prepare_keep lim i st st1 rfl e1)

/-- C17 fails in general: once the conjugate of a step has been used, every later use returns that same matrix, whatever is
assigned, added or computed in between. -/
theorem C17_stale (pr : Prog P V M) (lim i : Nat) (st st₁ st₂ st₃ : St P V M) (h : M) (r : Option M) (l : List (Cmd P V))
    (e : copyUnitary pr lim i true st = some (some h, st₁)) (el : run pr lim l st₁ = some st₂)
    (e' : copyUnitary pr lim i true st₂ = some (r, st₃)) : r = some h := by
  have aux : ∀ (st st' : St P V M) (r : Option M), copyUnitary pr lim i true st = some (r, st') →
      ∃ h, r = some h ∧ st'.hcm i = some h ∧ ∀ h', st.hcm i = some h' → h' = h := by
    intro st st' r e
    unfold copyUnitary getRef at e
    dsimp only at e
    split at e
    · simp at e
    rename_i m st1 e1
    have k := (unitaryOf_keep (steps := st.steps) (fun i st r st' a b => getU_keep lim i st r st' a b) i st _ _ rfl e1).2
    simp only [if_true] at e
    split at e
    · simp at e
    rename_i h st2 e2
    simp only [Option.some.injEq, Prod.mk.injEq] at e
    obtain ⟨rfl, rfl⟩ := e
    unfold hcOf at e2
    have kk : ∀ h', st.hcm i = some h' → st1.hcm i = some h' := by
      intro h' hh
      rcases k.hcm i with a | ⟨a, -⟩
      · rw [a, hh]
      · rw [a] at hh; simp at hh
    split at e2
    · rename_i h2 hh2
      simp only [Option.some.injEq, Prod.mk.injEq] at e2
      obtain ⟨rfl, rfl⟩ := e2
      exact ⟨_, rfl, hh2, fun h' hh => by have := kk h' hh; rw [hh2] at this; simpa using this.symm⟩
    · rename_i hn
      split at e2
      · simp at e2
      · simp only [Option.some.injEq, Prod.mk.injEq] at e2
        obtain ⟨rfl, rfl⟩ := e2
        exact ⟨_, rfl, by simp, fun h' hh => by have := kk h' hh; rw [hn] at this; simp at this⟩
  obtain ⟨h1, hr, h2, -⟩ := aux st st₁ _ e
  simp only [Option.some.injEq] at hr
  subst hr
  have h3 := (run_keep l st₁ st₂ el).1 i h h2
  obtain ⟨h4, rfl, -, h5⟩ := aux st₂ st₃ r e'
  rw [h5 h h3]

/-! ### C19: fixed protocols -/

/-- C19: once a fixed protocol holds a unitary, every later `unitary()` returns that one, whatever happens in between.  Missing:
that it holds one from the beginning, see `C19_none`. -/
theorem C19_constant_partial (pr : Prog P V M) (lim i : Nat) (hf : pr.fixed i = true) (st st₁ st₂ : St P V M) (m : M)
    (hm : st.mat i = some m) (l : List (Cmd P V)) (el : run pr lim l st = some st₁) (r : Option M)
    (e : unitary pr lim i st₁ = some (r, st₂)) : r = some m := by
  have h1 := (run_keep l st st₁ el).2 i m hf hm
  obtain ⟨hr, k⟩ := unitaryOf_keep (steps := st₁.steps) (fun i st r st' a b => getU_keep lim i st r st' a b) i st₁ _ _ rfl e
  rw [hr]
  exact k.mat i m hf h1

/-- The preparation before a run computes nothing for a fixed evolution that was never computed: it only unmarks it. -/
theorem C19_prepare_computes_nothing (pr : Prog P V M) (lim i : Nat) (hf : pr.fixed i = true) (hl : pr.leaf i = true)
    (hu : pr.upds i = []) (σ : P → V) (ratio : Nat → V) (steps : Nat → List Ref) (st : St P V M)
    (e : prepare pr lim i (init σ ratio steps) = some st) : st.mat i = none ∧ st.cnt i = 0 ∧ st.flag i = false := by
  cases lim with
  | zero => simp [prepare] at e
  | succ lim => cases lim with
    | zero => simp [prepare, hf, getU] at e
    | succ lim => cases lim with
      | zero => simp [prepare, hf, getU, hu, setups, defGet, eff] at e
      | succ lim =>
        simp [prepare, hf, getU, hu, setups, setbacks, defGet, eff, hl, clear, init, setMat, setFlag] at e
        subst e
        simp

/-! ### C20: updates -/

/-- C20: after `getUnitary()` and after `unitary()` every parameter has the value it had before, if every update has one system and
the updates of one step change different attributes; steps may be nested, shared and fixed. -/
theorem C20_restored_partial {pr : Prog P V M} (hu : SingleUpdates pr) (lim i : Nat) (st st' : St P V M) (r : Option M)
    (e : unitary pr lim i st = some (r, st') ∨ getU pr lim i st = some (r, st')) : st'.σ = st.σ := by
  rcases e with e | e
  · exact (unitaryOf_σ (steps := st.steps) (fun i st r st' a b => getU_σ hu lim i st r st' a b) i st r st' rfl e).1
  · exact (getU_σ (steps := st.steps) hu lim i st r st' rfl e).1

theorem runUpdate_σ (pr : Prog P V M) (ps : List P) (v : V) : ∀ (st : St P V M) (q : P),
    (runUpdate pr ps v st).σ q = if q ∈ ps then v else st.σ q := by
  unfold runUpdate
  induction ps with
  | nil => intro st q; simp
  | cons p ps ih =>
    intro st q
    rw [List.foldl_cons, ih, assign_σ]
    by_cases h1 : q ∈ ps
    · simp [h1]
    · by_cases h2 : q = p
      · simp [h2]
      · simp [h1, h2]

/-- C20: an update of several systems is undone for every one of them, if they had the same value before. -/
theorem C20_group_partial (pr : Prog P V M) (u : Upd P V) (st st₁ st₂ : St P V M) (mem : V)
    (hsame : ∀ p ∈ u.ps, ∀ q ∈ u.ps, st.σ p = st.σ q) (e : setup pr u st = some (mem, st₁)) (h : st₂.σ = st₁.σ) :
    (setback pr u mem st₂).σ = st.σ := by
  unfold setup at e
  split at e
  · simp at e
  rename_i p ps hp
  simp only [Option.some.injEq, Prod.mk.injEq] at e
  obtain ⟨rfl, rfl⟩ := e
  have hmem : p ∈ u.ps := by rw [hp]; simp
  funext q
  unfold setback
  split
  · rw [runUpdate_σ]
    split
    · rename_i hq; exact hsame p hmem q hq
    · rename_i hq; rw [h, runUpdate_σ, if_neg hq]
  · rename_i hv
    rw [h, runUpdate_σ]
    split
    · rename_i hq
      rw [← hsame p hmem q hq]
      simpa using hv
    · rfl

/-! ### Witnesses

Matrices are words; a product is concatenation. -/

/-- Words. -/
def words : Alg (List Nat) where
  mul := fun a b => a ++ b
  one := []
  conj := fun a => 99 :: a.reverse
  mul_one := List.append_nil

/-- Evolutions 0 and 1 depend on parameters 0 and 1 and have words `[i, value, ratio]`; from 2 on there are protocols. -/
def demo (marks : Nat → Nat → Bool) (upds : Nat → List (Upd Nat Nat)) (fixed : Nat → Bool) : Prog Nat Nat (List Nat) where
  alg := words
  leaf := fun i => decide (i < 2)
  U := fun i σ r => [i, σ i, r]
  marks := marks
  upds := upds
  fixed := fixed

/-- Parameter `p` marks the evolution `p` and the protocols. -/
def allMarks : Nat → Nat → Bool := fun p i => p == i || decide (2 ≤ i)
/-- Parameter `p` marks the evolution `p` only: a parameter of the step's own simulation. -/
def ownMarks : Nat → Nat → Bool := fun p i => p == i
def none' : Nat → List (Upd Nat Nat) := fun _ => []
def nofix : Nat → Bool := fun _ => false
/-- All parameters and ratios one. -/
def start (steps : Nat → List Ref) : St Nat Nat (List Nat) := init (fun _ => 1) (fun _ => 1) steps
/-- Protocol 2 has steps 0, 1 and 0 again; protocol 3 has a copy of protocol 2 twice. -/
def demoSteps : Nat → List Ref := fun i => if i = 2 then [.orig 0, .orig 1, .copy 0 false] else
  if i = 3 then [.orig 2, .copy 1 false] else []

theorem demo_tame : Tame (demo allMarks none' nofix) demoSteps where
  notFixed := fun _ => rfl
  updLeaf := fun _ _ => rfl
  updOne := fun _ => ⟨[], rfl, List.nodup_nil⟩
  noHc := by
    intro i j h
    unfold demoSteps at h
    split at h
    · simp at h
    · split at h <;> simp at h

theorem demo_steps_cases (i : Nat) (r : Ref) (h : r ∈ demoSteps i) : (i = 2 ∧ r.id < 2) ∨ (i = 3 ∧ r.id < 3) := by
  unfold demoSteps at h
  split at h
  · rename_i h2
    left; refine ⟨h2, ?_⟩
    simp only [List.mem_cons, List.not_mem_nil, or_false] at h
    rcases h with rfl | rfl | rfl <;> simp [Ref.id]
  · split at h
    · rename_i h3
      right; refine ⟨h3, ?_⟩
      simp only [List.mem_cons, List.not_mem_nil, or_false] at h
      rcases h with rfl | rfl <;> simp [Ref.id]
    · simp at h

theorem demo_covers : Covers (demo allMarks none' nofix) demoSteps id where
  leafDep := by
    intro i _ σ τ r h
    have := h i (by simp [demo, allMarks])
    simp [demo, this]
  closed := by
    intro i hi r hr p _
    have : 2 ≤ i := by
      have : ¬ i < 2 := by simpa [demo] using hi
      omega
    simp [demo, allMarks, this]
  rank := by
    intro i _ r hr
    rcases demo_steps_cases i r hr with ⟨rfl, h⟩ | ⟨rfl, h⟩ <;> exact h

/-- A history: protocol 3 is asked for, parameter 1 changes, the evolution 1 and protocol 2 are asked for; then protocol 3 is right:
steps 0, 1, 0, 1 from right to left, with the new value 7. -/
example : ((run (demo allMarks none' nofix) 9 [.unitary 3, .assign 1 7, .unitary 1, .unitary 2] (start demoSteps)).bind fun st =>
    (unitary (demo allMarks none' nofix) 9 3 st).map Prod.fst) = some (some ([1, 7, 1] ++ [0, 1, 1] ++ [1, 7, 1] ++ [0, 1, 1])) := by
  decide

/-- And evolution 1 was exponentiated twice, evolution 0 once. -/
example : ((run (demo allMarks none' nofix) 9 [.unitary 3, .assign 1 7, .assign 1 7, .unitary 1, .unitary 2, .unitary 3, .unitary 3]
    (start demoSteps)).map fun st => (st.cnt 0, st.cnt 1)) = some (1, 2) := by
  decide

theorem demo_ordered : Ordered (demo allMarks none' nofix) demoSteps where
  noUpd := fun _ => rfl
  notFixed := fun _ => rfl
  order := by
    intro i l₁ r l₂ _ hsp j hj hl
    have hjl : j < 2 := by simpa [demo] using hl
    have hr := demo_steps_cases i r (by rw [hsp]; simp)
    rcases hr with ⟨rfl, hr⟩ | ⟨rfl, hr⟩
    · -- the only later evolution that is itself a step is 1, behind 0
      have hleaf : (demo allMarks none' nofix).leaf r.id = true := by simpa [demo] using hr
      intro ht
      have := ht.of_leaf hleaf
      subst this
      have hsp' : [Ref.orig 0, .orig 1, .copy 0 false] = l₁ ++ r :: l₂ := hsp
      match l₁, hsp' with
      | [], h =>
        simp only [List.nil_append, List.cons.injEq] at h
        obtain ⟨rfl, rfl⟩ := h
        simp [Ref.id] at hj
      | [a], h =>
        simp only [List.cons_append, List.nil_append, List.cons.injEq] at h
        obtain ⟨-, rfl, rfl⟩ := h
        simp at hj
      | [a, b], h =>
        simp only [List.cons_append, List.nil_append, List.cons.injEq] at h
        obtain ⟨-, -, -, rfl⟩ := h
        simp at hj
      | a :: b :: c :: l, h => simp at h
    · have hsp' : [Ref.orig 2, .copy 1 false] = l₁ ++ r :: l₂ := hsp
      exfalso
      match l₁, hsp' with
      | [], h =>
        simp only [List.nil_append, List.cons.injEq] at h
        obtain ⟨-, rfl⟩ := h
        simp at hj
      | [a], h =>
        simp only [List.cons_append, List.nil_append, List.cons.injEq] at h
        obtain ⟨-, -, rfl⟩ := h
        simp at hj
      | a :: b :: l, h => simp at h

/-- A result that is not the one computed from scratch. -/
def Stale (pr : Prog Nat Nat (List Nat)) (steps : Nat → List Ref) (l : List (Cmd Nat Nat)) (i : Nat) : Prop :=
  ∃ st r st', run pr 9 l (start steps) = some st ∧ unitary pr 9 i st = some (r, st') ∧
    ∀ val, FromScratch pr st val → r ≠ some (val i)

/-- C14 fails: assigning `ratio` after the unitary was computed changes nothing. -/
theorem C14_ratio : Stale (demo allMarks none' nofix) demoSteps [.unitary 0, .setRatio 0 5] 0 := by
  refine ⟨_, _, _, rfl, rfl, fun val h => ?_⟩
  rw [h.leaf 0 rfl]
  decide

/-- C14 fails: adding a step that has been computed already to a computed protocol changes nothing. -/
theorem C14_added_step : Stale (demo allMarks none' nofix) (fun i => if i = 2 then [.orig 0] else [])
    [.unitary 2, .unitary 1, .addStep 2 (.copy 1 false)] 2 := by
  refine ⟨_, _, _, rfl, rfl, fun val h => ?_⟩
  have h2 : val 2 = _ ++ (_ ++ []) := h.comp 2 rfl
  rw [h2]
  dsimp only [Ref.id]
  rw [h.leaf 0 rfl, h.leaf 1 rfl]
  decide

/-- C14 fails: after a change of a parameter of the simulation of a step itself, asking for the unitary of the step first leaves the
protocol out of date. -/
theorem C14_step_asked_first : Stale (demo ownMarks none' nofix) (fun i => if i = 2 then [.orig 0] else [])
    [.unitary 2, .assign 0 7, .unitary 0] 2 := by
  refine ⟨_, _, _, rfl, rfl, fun val h => ?_⟩
  have h2 : val 2 = _ ++ [] := h.comp 2 rfl
  rw [h2]
  dsimp only [Ref.id]
  rw [h.leaf 0 rfl]
  decide

/-- Without asking for the step first it is right. -/
example : ((run (demo ownMarks none' nofix) 9 [.unitary 2, .assign 0 7] (start fun i => if i = 2 then [.orig 0] else [])).bind fun st =>
    (unitary (demo ownMarks none' nofix) 9 2 st).map Prod.fst) = some (some [0, 7, 1]) := by decide

/-- C14 fails: updates of a protocol stay in the matrices of its steps, which are then used elsewhere: step 0 of protocol 2, which
sets the parameter to 5, is computed with 5, and its own unitary afterwards is still the one with 5. -/
theorem C14_protocol_update : Stale (demo allMarks (fun i => if i = 2 then [⟨[0], 5⟩] else []) nofix)
    (fun i => if i = 2 then [.orig 0] else []) [.unitary 2] 0 := by
  refine ⟨_, _, _, rfl, rfl, fun val h => ?_⟩
  rw [h.leaf 0 rfl]
  decide

/-- C15 fails: a conjugate placed before the step itself makes the step be exponentiated twice at once. -/
theorem C15_copy_before_original :
    ((run (demo allMarks none' nofix) 9 [.unitary 2] (start fun i => if i = 2 then [.copy 0 true, .orig 0] else [])).map
      fun st => st.cnt 0) = some 2 := by decide

/-- C15 fails: two steps in different protocols that update the same parameter are exponentiated at every call, although no parameter
was ever assigned from outside. -/
theorem C15_updates :
    ((run (demo (fun p i => p == 0 && decide (i < 4)) (fun i => if i < 2 then [⟨[0], 5 + i⟩] else []) nofix) 9
      [.unitary 2, .unitary 3, .unitary 2, .unitary 3, .unitary 2, .unitary 3]
      (start fun i => if i = 2 then [.orig 0] else if i = 3 then [.orig 1] else [])).map
      fun st => (st.cnt 0, st.cnt 1)) = some (3, 3) := by decide

/-- C17 fails: step 0, conjugated, after its parameter changed from 1 to 7: the unitary is new, the conjugate is not. -/
theorem C17_witness : ∃ st st₁ st₂ u h,
    run (demo allMarks none' nofix) 9 [.unitary 2, .assign 0 7] (start fun i => if i = 2 then [.copy 0 true] else []) = some st ∧
    unitary (demo allMarks none' nofix) 9 0 st = some (some u, st₁) ∧
    copyUnitary (demo allMarks none' nofix) 9 0 true st = some (some h, st₂) ∧ h ≠ words.conj u :=
  ⟨_, _, _, _, _, rfl, rfl, rfl, by decide⟩

/-- C19 fails: a fixed evolution, prepared at the beginning of a run, has no unitary after a parameter changed. -/
theorem C19_none : ((run (demo allMarks none' (fun i => i == 0)) 9 [.prepare 0, .assign 0 7] (start fun _ => [])).bind fun st =>
    (unitary (demo allMarks none' (fun i => i == 0)) 9 0 st).map Prod.fst) = some none := by decide

/-- If it is asked for before the change, it has one, and keeps it. -/
example : ((run (demo allMarks none' (fun i => i == 0)) 9 [.prepare 0, .unitary 0, .assign 0 7] (start fun _ => [])).bind fun st =>
    (unitary (demo allMarks none' (fun i => i == 0)) 9 0 st).map Prod.fst) = some (some [0, 1, 1]) := by decide

/-- C20 fails: an update of two systems with values 1 and 2 leaves both with 1. -/
theorem C20_several_systems : ((unitary (demo allMarks (fun i => if i = 0 then [⟨[0, 1], 5⟩] else []) nofix) 9 0
    (init (fun p => p + 1) (fun _ => 1) (fun _ => []))).map fun x => (x.2.σ 0, x.2.σ 1)) = some (1, 1) := by decide

/-- C20 fails: two updates of the same attribute in one step leave it with the value of the first update. -/
theorem C20_same_attribute : ((unitary (demo allMarks (fun i => if i = 0 then [⟨[0], 5⟩, ⟨[0], 6⟩] else []) nofix) 9 0
    (init (fun p => p + 1) (fun _ => 1) (fun _ => []))).map fun x => x.2.σ 0) = some 5 := by decide

/-- Updates of different attributes are undone. -/
example : ((unitary (demo allMarks (fun i => if i = 0 then [⟨[0], 5⟩, ⟨[1], 6⟩] else []) nofix) 9 0
    (init (fun p => p + 1) (fun _ => 1) (fun _ => []))).map fun x => (x.1, x.2.σ 0, x.2.σ 1)) = some (some [0, 5, 1], 1, 2) := by decide

end Verif.Cache
