import Verif.Cache.Invariant
/-!
# C14, C18, C20: protocols are up to date
-/
namespace Verif.Cache
variable {P V M : Type} [DecidableEq P] [DecidableEq V]

/-- The dependency table is complete, and protocols do not contain themselves. -/
structure Covers (pr : Prog P V M) (steps : Nat → List Ref) (rank : Nat → Nat) : Prop where
  /-- a leaf uses only parameters that mark it -/
  leafDep : ∀ i, pr.leaf i = true → ∀ (σ τ : P → V) (r : V), (∀ p, pr.marks p i = true → σ p = τ p) → pr.U i σ r = pr.U i τ r
  /-- what marks a step also marks the protocol -/
  closed : ∀ i, pr.leaf i = false → ∀ r ∈ steps i, ∀ p, pr.marks p r.id = true → pr.marks p i = true
  rank : ∀ i, pr.leaf i = false → ∀ r ∈ steps i, rank r.id < rank i

/-! ### The values from scratch exist and are unique -/

/-- The values from scratch, by recursion on the depth. -/
def scratchF (pr : Prog P V M) (st : St P V M) : Nat → Nat → M
  | 0, _ => pr.alg.one
  | n + 1, i => if pr.leaf i then pr.U i (updated (pr.upds i) st.σ) (st.ratio i)
    else (st.steps i).foldl (fun (acc : M) r => pr.alg.mul (scratchF pr st n r.id) acc) pr.alg.one

theorem foldl_congr_mem {α β : Type} (f g : β → α → β) (l : List α) (h : ∀ a ∈ l, ∀ b, f b a = g b a) (b : β) :
    l.foldl f b = l.foldl g b := by
  induction l generalizing b with
  | nil => rfl
  | cons a l ih =>
    rw [List.foldl_cons, List.foldl_cons, h a (by simp)]
    exact ih (fun x hx => h x (by simp [hx])) _

theorem scratchF_stable {pr : Prog P V M} {st : St P V M} {rank : Nat → Nat}
    (H : ∀ i, pr.leaf i = false → ∀ r ∈ st.steps i, rank r.id < rank i) :
    ∀ (n i a b : Nat), rank i < n → n ≤ a → n ≤ b → scratchF pr st a i = scratchF pr st b i := by
  intro n
  induction n with
  | zero => intro i a b h; omega
  | succ n ih =>
    intro i a b hi ha hb
    obtain ⟨a, rfl⟩ : ∃ x, a = x + 1 := ⟨a - 1, by omega⟩
    obtain ⟨b, rfl⟩ : ∃ x, b = x + 1 := ⟨b - 1, by omega⟩
    unfold scratchF
    split
    · rfl
    · rename_i hl
      apply foldl_congr_mem
      intro r hr acc
      rw [ih r.id a b (by have := H i (not_leaf hl) r hr; omega) (by omega) (by omega)]

theorem scratchF_fromScratch {pr : Prog P V M} {st : St P V M} {rank : Nat → Nat}
    (H : ∀ i, pr.leaf i = false → ∀ r ∈ st.steps i, rank r.id < rank i) :
    FromScratch pr st fun i => scratchF pr st (rank i + 1) i := by
  refine ⟨fun i hl => by simp [scratchF, hl], fun i hl => ?_⟩
  show scratchF pr st (rank i + 1) i = _
  rw [scratchF]
  rw [if_neg (by simp [hl])]
  apply foldl_congr_mem
  intro r hr acc
  rw [scratchF_stable H (rank r.id + 1) r.id (rank i) (rank r.id + 1) (by omega) (by have := H i hl r hr; omega) (by omega)]

theorem fromScratch_exists {pr : Prog P V M} {st : St P V M} {rank : Nat → Nat}
    (H : ∀ i, pr.leaf i = false → ∀ r ∈ st.steps i, rank r.id < rank i) : ∃ val, FromScratch pr st val := ⟨_, scratchF_fromScratch H⟩

theorem updated_congr (us : List (Upd P V)) (σ τ : P → V) (q : P) (h : σ q = τ q) : updated us σ q = updated us τ q := by
  unfold updated
  induction us generalizing σ τ with
  | nil => exact h
  | cons u us ih =>
    simp only [List.foldl_cons]
    apply ih
    split
    · rfl
    · exact h

/-- Two states with the same steps and ratios: protocols not marked by the parameters in which they differ have the same
value. -/
theorem fromScratch_agree {pr : Prog P V M} {rank : Nat → Nat} {st st' : St P V M} {val val' : Nat → M}
    (C : Covers pr st.steps rank) (hr : st'.ratio = st.ratio) (hs : st'.steps = st.steps)
    (h : FromScratch pr st val) (h' : FromScratch pr st' val') (p : P) (hp : ∀ q, q ≠ p → st'.σ q = st.σ q) :
    ∀ (n i : Nat), rank i < n → pr.marks p i = false → val' i = val i := by
  intro n
  induction n with
  | zero => intro i hi; omega
  | succ n ih =>
    intro i hi hm
    by_cases hl : pr.leaf i = true
    · rw [h.leaf i hl, h'.leaf i hl, hr]
      apply C.leafDep i hl
      intro q hq
      apply updated_congr
      apply hp
      rintro rfl
      rw [hm] at hq; simp at hq
    · have hl := not_leaf hl
      rw [h.comp i hl, h'.comp i hl, hs]
      apply foldl_congr_mem
      intro r hr acc
      rw [ih r.id (by have := C.rank i hl r hr; omega)]
      cases hh : pr.marks p r.id with
      | false => rfl
      | true => rw [C.closed i hl r hr p hh] at hm; simp at hm

/-! ### Histories -/

/-- Assignments of parameters and calls of `unitary()` and `getUnitary()`. -/
def Cmd.Plain : Cmd P V → Prop
  | .assign _ _ => True
  | .unitary _ => True
  | .getUnitary _ => True
  | _ => False

theorem exec_inv {pr : Prog P V M} {steps : Nat → List Ref} {rank : Nat → Nat} (T : Tame pr steps) (C : Covers pr steps rank)
    {lim : Nat} (c : Cmd P V) (hc : c.Plain) (st st' : St P V M) (hs : st.steps = steps)
    (hi : ∀ val, FromScratch pr st val → Inv val st) (e : exec pr lim c st = some st') :
    st'.steps = steps ∧ st'.ratio = st.ratio ∧ ∀ val, FromScratch pr st' val → Inv val st' := by
  have H : ∀ i, pr.leaf i = false → ∀ r ∈ st.steps i, rank r.id < rank i := fun i hl r hr => C.rank i hl r (hs ▸ hr)
  obtain ⟨v0, h0⟩ := fromScratch_exists (st := st) H
  cases c with
  | assign p v =>
    simp only [exec, Option.some.injEq] at e
    subst e
    obtain ⟨r1, r2, r3, r4, r5, r6⟩ := assign_rest pr p v st
    refine ⟨r2.trans hs, r1, fun val hv j hj => ?_⟩
    by_cases hne : v = st.σ p
    · have : assign pr p v st = st := by unfold assign; rw [if_neg (by simpa using hne)]
      rw [this] at hv hj ⊢
      exact hi val hv j hj
    · have hfl : (assign pr p v st).flag j = (st.flag j || pr.marks p j) := by unfold assign; rw [if_pos hne]
      rw [hfl, Bool.or_eq_false_iff] at hj
      have := hi v0 h0 j hj.1
      have hag := fromScratch_agree (hs ▸ C) r1 r2 h0 hv p (fun q hq => by rw [assign_σ, if_neg hq]) (rank j + 1) j
        (by omega) hj.2
      unfold Ok
      rw [r3, hag]
      exact this
  | unitary i =>
    simp only [exec, Option.map_eq_some_iff] at e
    obtain ⟨⟨r, st1⟩, e1, rfl⟩ := e
    have sm := (unitaryOf_spec (lim := lim) T (fun i st r st' a b c d => getU_spec T lim i st r st' a b c d) i st r st1 hs h0 (hi v0 h0) e1).same
    refine ⟨sm.steps.trans hs, sm.ratio, fun val hv => ?_⟩
    have hv0 : FromScratch pr st val := hv.same ⟨sm.σ.symm, sm.ratio.symm, sm.steps.symm⟩
    exact (unitaryOf_spec (lim := lim) T (fun i st r st' a b c d => getU_spec T lim i st r st' a b c d) i st r st1 hs hv0 (hi val hv0) e1).inv
  | getUnitary i =>
    simp only [exec, Option.map_eq_some_iff] at e
    obtain ⟨⟨r, st1⟩, e1, rfl⟩ := e
    have sm := (getU_spec T lim i st r st1 hs h0 (hi v0 h0) e1).same
    refine ⟨sm.steps.trans hs, sm.ratio, fun val hv => ?_⟩
    have hv0 : FromScratch pr st val := hv.same ⟨sm.σ.symm, sm.ratio.symm, sm.steps.symm⟩
    exact (getU_spec T lim i st r st1 hs hv0 (hi val hv0) e1).inv
  | setRatio => exact absurd hc (by simp [Cmd.Plain])
  | addStep => exact absurd hc (by simp [Cmd.Plain])
  | prepare => exact absurd hc (by simp [Cmd.Plain])

theorem run_inv {pr : Prog P V M} {steps : Nat → List Ref} {rank : Nat → Nat} (T : Tame pr steps) (C : Covers pr steps rank)
    {lim : Nat} : ∀ (l : List (Cmd P V)), (∀ c ∈ l, c.Plain) → ∀ (st st' : St P V M), st.steps = steps →
    (∀ val, FromScratch pr st val → Inv val st) → run pr lim l st = some st' →
    st'.steps = steps ∧ st'.ratio = st.ratio ∧ ∀ val, FromScratch pr st' val → Inv val st' := by
  intro l
  induction l with
  | nil =>
    intro _ st st' hs hi e
    simp only [run, Option.some.injEq] at e
    subst e
    exact ⟨hs, rfl, hi⟩
  | cons c l ih =>
    intro hl st st' hs hi e
    unfold run at e
    split at e
    · simp at e
    rename_i st1 e1
    obtain ⟨a1, a2, a3⟩ := exec_inv T C c (hl c (by simp)) st st1 hs hi e1
    obtain ⟨b1, b2, b3⟩ := ih (fun c hc => hl c (by simp [hc])) st1 st' a1 a3 e
    exact ⟨b1, b2.trans a2, b3⟩

theorem init_inv (pr : Prog P V M) (σ : P → V) (ratio : Nat → V) (steps : Nat → List Ref) (val : Nat → M) :
    Inv val (init σ ratio steps : St P V M) := by
  intro j hj; simp [init] at hj

/-! ### The calls return -/

section
variable {pr : Prog P V M} {steps : Nat → List Ref} {rank : Nat → Nat}
  (H : ∀ i, pr.leaf i = false → ∀ r ∈ steps i, rank r.id < rank i)
include H

theorem eff_total : ∀ (lim i : Nat) (st : St P V M), st.steps = steps → rank i < lim → ∃ x, eff pr lim i st = some x := by
  intro lim
  induction lim with
  | zero => intro i st _ h; omega
  | succ lim ih =>
    intro i st hs hi
    unfold eff
    split
    · exact ⟨_, rfl⟩
    · rename_i hl
      have loop : ∀ (rs : List Ref), (∀ r ∈ rs, rank r.id < lim) → ∀ st : St P V M, st.steps = steps →
          ∃ x, effLoop (eff pr lim) rs st = some x := by
        intro rs
        induction rs with
        | nil => intro _ st _; exact ⟨_, rfl⟩
        | cons r rs ihr =>
          intro hr st hs
          obtain ⟨⟨b, st1⟩, e⟩ := ih r.id st hs (hr r (by simp))
          unfold effLoop
          rw [e]
          cases b with
          | true => exact ⟨_, rfl⟩
          | false => exact ihr (fun r h => hr r (by simp [h])) st1 ((eff_spec pr steps lim _ _ _ _ hs e).1.same.steps.trans hs)
      obtain ⟨⟨b, st1⟩, e⟩ := loop (st.steps i) (fun r hr => by have := H i (not_leaf hl) r (hs ▸ hr); omega) st hs
      rw [e]
      cases b <;> exact ⟨_, rfl⟩

theorem puGet_total (lim : Nat) : ∀ (rs : List Ref), (∀ r ∈ rs, rank r.id < lim) → ∀ st : St P V M, st.steps = steps →
    ∃ x, puGet pr lim rs st = some x := by
  intro rs
  induction rs with
  | nil => intro _ st _; exact ⟨_, rfl⟩
  | cons r rs ih =>
    intro hr st hs
    obtain ⟨⟨b, st1⟩, e⟩ := eff_total H lim r.id st hs (hr r (by simp))
    obtain ⟨⟨bs, st2⟩, e2⟩ := ih (fun r h => hr r (by simp [h])) st1 ((eff_spec pr steps lim _ _ _ _ hs e).1.same.steps.trans hs)
    exact ⟨(b :: bs, st2), by unfold puGet; rw [e]; dsimp only; rw [e2]⟩

theorem clear_total : ∀ (lim i : Nat) (st : St P V M), st.steps = steps → rank i < lim → ∃ st', clear pr lim i st = some st' := by
  intro lim
  induction lim with
  | zero => intro i st _ h; omega
  | succ lim ih =>
    intro i st hs hi
    unfold clear
    dsimp only
    split
    · exact ⟨_, rfl⟩
    · rename_i hl
      have loop : ∀ (l : List Nat), (∀ j ∈ l, rank j < lim) → ∀ st : St P V M, st.steps = steps →
          ∃ x, l.foldl (fun (acc : Option (St P V M)) j => acc.bind fun st => clear pr lim j st) (some st) = some x := by
        intro l
        induction l with
        | nil => intro _ st _; exact ⟨st, rfl⟩
        | cons j l ihl =>
          intro hj st hs
          obtain ⟨st1, e⟩ := ih j st hs (hj j (by simp))
          rw [List.foldl_cons, Option.bind_some, e]
          exact ihl (fun j h => hj j (by simp [h])) st1 ((clear_spec pr steps lim j st st1 hs e).1.steps.trans hs)
      refine loop _ (fun j hj => ?_) _ (by exact hs)
      have := H i (not_leaf hl) (.orig j) (hs ▸ mem_origs.mp hj)
      simp only [Ref.id] at this
      omega

theorem getU_total {val : Nat → M} (T : Tame pr steps) : ∀ (lim i : Nat) (st : St P V M), st.steps = steps →
    FromScratch pr st val → Inv val st → rank i + 1 < lim → ∃ x, getU pr lim i st = some x := by
  intro lim
  induction lim with
  | zero => intro i st _ _ _ h; omega
  | succ lim ih =>
    intro i st hs hf hi hlim
    have hg := fun i st r st' a b c d => getU_spec (val := val) T lim i st r st' a b c d
    -- `unitary()` of a step
    have uni : ∀ (j : Nat) (st : St P V M), st.steps = steps → FromScratch pr st val → Inv val st → rank j + 1 < lim →
        ∃ x, unitaryOf pr lim (getU pr lim) j st = some x := by
      intro j st hs hf hi hj
      obtain ⟨⟨b, st1⟩, e⟩ := eff_total H lim j st hs (by omega)
      have g1 := (eff_spec pr steps lim _ _ _ _ hs e).1
      obtain ⟨⟨m, st2⟩, e2⟩ := ih j st1 (g1.same.steps.trans hs) (hf.same g1.same) (g1.inv hi) hj
      unfold unitaryOf
      rw [e]
      dsimp only
      rw [e2, T.notFixed j]
      cases b with
      | true => exact ⟨_, rfl⟩
      | false =>
        cases hm : st1.mat j with
        | none => exact ⟨_, rfl⟩
        | some m => exact ⟨_, rfl⟩
    have loop : ∀ (rs : List Ref), (∀ r ∈ rs, r ∈ steps i) → (∀ r ∈ rs, rank r.id + 1 < lim) → ∀ (acc : M) (st : St P V M),
        st.steps = steps → FromScratch pr st val → Inv val st →
        ∃ x, createLoop pr lim (getU pr lim) rs acc st = some x := by
      intro rs
      induction rs with
      | nil => intro _ _ acc st _ _ _; exact ⟨_, rfl⟩
      | cons r rs ihr =>
        intro hmem hr acc st hs hf hi
        obtain ⟨⟨vals, st1⟩, e1⟩ := puGet_total H lim rs (fun r h => by have := hr r (by simp [h]); omega) st hs
        have g1 := (puGet_spec pr steps lim _ _ _ _ hs e1).1
        have hs1 := g1.same.steps.trans hs
        obtain ⟨⟨m, st2⟩, e2⟩ : ∃ x, getRef pr lim (getU pr lim) r st1 = some x := by
          cases r with
          | orig j => exact ih j st1 hs1 (hf.same g1.same) (g1.inv hi) (hr (.orig j) (by simp))
          | copy j hc =>
            have : hc = false := by
              cases hc with
              | false => rfl
              | true => exact absurd (hmem _ (by simp)) (T.noHc i j)
            subst this
            obtain ⟨⟨m, st2⟩, e2⟩ := uni j st1 hs1 (hf.same g1.same) (g1.inv hi) (hr (.copy j false) (by simp))
            exact ⟨(st2.mat j, st2), by unfold getRef; dsimp only; rw [e2]; rfl⟩
        have p := getRef_spec T hg i r (hmem r (by simp)) st1 m st2 hs1 (hf.same g1.same) (g1.inv hi) e2
        have fal := puGet_false (val := val) pr steps lim _ _ _ _ hs hi e1
        obtain ⟨q1, q2, -, -, -⟩ := puSet_spec (val := val) rs vals st2 p.inv fun k j hk hb => p.keep j (fal k j hk hb)
        have hsame : Same st (puSet rs vals st2) := (g1.same.trans p.same).trans q2
        obtain ⟨x, ex⟩ := ihr (fun r h => hmem r (by simp [h])) (fun r h => hr r (by simp [h])) (pr.alg.mul (val r.id) acc)
          (puSet rs vals st2) (hsame.steps.trans hs) (hf.same hsame) q1
        refine ⟨x, ?_⟩
        unfold createLoop
        rw [e1]
        dsimp only
        rw [e2, p.ret]
        exact ex
    have dg : ∀ st1 : St P V M, st1.steps = steps → (pr.leaf i = false → FromScratch pr st1 val ∧ Inv val st1) →
        ∃ m st2, defGet pr lim (getU pr lim) i st1 = some (m, st2) ∧ st2.steps = steps := by
      intro st1 hs1 hc
      obtain ⟨⟨b, st2⟩, e⟩ := eff_total H lim i st1 hs1 (by omega)
      have g2 := (eff_spec pr steps lim _ _ _ _ hs1 e).1
      unfold defGet
      rw [e]
      dsimp only
      by_cases hcr : ((b && !pr.fixed i) || (!b && (st2.mat i).isNone)) = true
      · rw [if_pos hcr]
        unfold create
        by_cases hl : pr.leaf i = true
        · rw [if_pos hl]
          exact ⟨_, _, rfl, g2.same.steps.trans hs1⟩
        · rw [if_neg hl]
          have hl := not_leaf hl
          obtain ⟨hf1, hi1⟩ := hc hl
          have hs2 := g2.same.steps.trans hs1
          obtain ⟨⟨u, st3⟩, e3⟩ := loop (st2.steps i) (fun r h => hs2 ▸ h)
            (fun r h => by have := H i hl r (hs2 ▸ h); omega) pr.alg.one st2 hs2 (hf1.same g2.same) (g2.inv hi1)
          have := createLoop_spec T hg i (st2.steps i) (fun r h => hs2 ▸ h) _ _ _ _ hs2 (hf1.same g2.same) (g2.inv hi1) e3
          rw [e3]
          exact ⟨_, _, rfl, this.2.1.steps.trans hs2⟩
      · rw [if_neg hcr]
        exact ⟨_, _, rfl, g2.same.steps.trans hs1⟩
    unfold getU
    obtain ⟨pvs, hpv, hn⟩ := T.updOne i
    obtain ⟨st1, e1, s1, -, -⟩ := setups_one pr pvs st hn
    rw [← hpv] at e1
    rw [e1]
    dsimp only
    obtain ⟨m, st2, e2, hs2⟩ := dg st1 (s1.steps.trans hs) (fun hl => by
      have h0 := T.updLeaf i hl
      rw [h0] at e1
      simp only [setups, Option.some.injEq, Prod.mk.injEq] at e1
      exact e1.2 ▸ ⟨hf, hi⟩)
    rw [e2]
    dsimp only
    have hsb : ∀ (us : List (Upd P V)) (ms : List V) (st : St P V M), (setbacks pr us ms st).steps = st.steps := by
      intro us
      induction us with
      | nil => intro ms st; cases ms <;> rfl
      | cons u us ihu =>
        intro ms st
        cases ms with
        | nil => rfl
        | cons m ms =>
          show (setbacks pr us ms (setback pr u m st)).steps = st.steps
          rw [ihu]
          unfold setback
          split
          · unfold runUpdate
            have : ∀ (ps : List P) (st : St P V M), (ps.foldl (fun (st : St P V M) p => assign pr p m st) st).steps = st.steps := by
              intro ps
              induction ps with
              | nil => intro st; rfl
              | cons p ps ihp => intro st; rw [List.foldl_cons, ihp]; exact (assign_rest pr p m st).2.1
            exact this _ _
          · rfl
    obtain ⟨st3, e3⟩ := clear_total H lim i (setbacks pr (pr.upds i) (List.map (fun pv => st.σ pv.fst) pvs) (setMat st2 i m))
      ((hsb _ _ _).trans hs2) (by omega)
    rw [e3]
    exact ⟨_, rfl⟩

end

/-! ### The theorems -/

/-- C14: after any history of parameter assignments and calls of `unitary()` and `getUnitary()` on any protocols, `unitary()`
returns, and returns the unitary computed from scratch from the current parameters.  Restrictions: `Tame` and `Covers`; steps and
ratios are given before. -/
theorem C14_current_partial {pr : Prog P V M} {steps : Nat → List Ref} {rank : Nat → Nat} (T : Tame pr steps)
    (C : Covers pr steps rank) (σ : P → V) (ratio : Nat → V) (lim : Nat) (l : List (Cmd P V)) (hl : ∀ c ∈ l, c.Plain)
    (st : St P V M) (e : run pr lim l (init σ ratio steps) = some st) (i : Nat) (hi : rank i + 1 < lim) :
    ∃ val st', FromScratch pr st val ∧ unitary pr lim i st = some (some (val i), st') ∧ st'.σ = st.σ := by
  obtain ⟨hs, -, hinv⟩ := run_inv T C l hl _ _ rfl (fun val _ => init_inv pr σ ratio steps val) e
  have H : ∀ i, pr.leaf i = false → ∀ r ∈ st.steps i, rank r.id < rank i := fun i hl r hr => C.rank i hl r (hs ▸ hr)
  obtain ⟨val, hv⟩ := fromScratch_exists (st := st) H
  have hg := fun i st r st' a b c d => getU_spec (val := val) T lim i st r st' a b c d
  obtain ⟨⟨b, st1⟩, e1⟩ := eff_total C.rank lim i st hs (by omega)
  have g1 := (eff_spec pr steps lim _ _ _ _ hs e1).1
  obtain ⟨⟨m, st2⟩, e2⟩ := getU_total C.rank T lim i st1 (g1.same.steps.trans hs) (hv.same g1.same) (g1.inv (hinv val hv)) hi
  obtain ⟨⟨r, st'⟩, e3⟩ : ∃ x, unitary pr lim i st = some x := by
    unfold unitary unitaryOf
    rw [e1]
    dsimp only
    rw [e2, T.notFixed i]
    cases b with
    | true => exact ⟨_, rfl⟩
    | false => cases hm : st1.mat i <;> exact ⟨_, rfl⟩
  have p := unitaryOf_spec T hg i st r st' hs hv (hinv val hv) e3
  have hr := p.ret
  subst hr
  exact ⟨val, st', hv, e3, p.same.σ⟩

/-- The unitaries computed from scratch are unique, so `C14_current_partial` determines the result. -/
theorem fromScratch_unique {pr : Prog P V M} {st : St P V M} {rank : Nat → Nat} {val val' : Nat → M}
    (H : ∀ i, pr.leaf i = false → ∀ r ∈ st.steps i, rank r.id < rank i)
    (h : FromScratch pr st val) (h' : FromScratch pr st val') : ∀ (n i : Nat), rank i < n → val' i = val i := by
  intro n
  induction n with
  | zero => intro i hi; omega
  | succ n ih =>
    intro i hi
    by_cases hl : pr.leaf i = true
    · rw [h.leaf i hl, h'.leaf i hl]
    · have hl := not_leaf hl
      rw [h.comp i hl, h'.comp i hl]
      apply foldl_congr_mem
      intro r hr acc
      rw [ih r.id (by have := H i hl r hr; omega)]

/-- The ordered product `U(s_n) ... U(s_2) U(s_1)`. -/
def orderedProduct (A : Alg M) : List M → M
  | [] => A.one
  | [u] => u
  | u :: us => A.mul (orderedProduct A us) u

/-- C18: the unitary of a protocol is `U(s_n) ... U(s_2) U(s_1)`, the `U(s_k)` being what `unitary()` of the steps themselves
returns in the same state, repeated steps included; and computing it leaves the parameters as they were. -/
theorem C18_product_partial {pr : Prog P V M} {steps : Nat → List Ref} {rank : Nat → Nat} (T : Tame pr steps)
    (C : Covers pr steps rank) (assoc : ∀ a b c, pr.alg.mul (pr.alg.mul a b) c = pr.alg.mul a (pr.alg.mul b c))
    (one_mul : ∀ a, pr.alg.mul pr.alg.one a = a) (σ : P → V) (ratio : Nat → V) (lim : Nat) (l : List (Cmd P V))
    (hl : ∀ c ∈ l, c.Plain) (st : St P V M) (e : run pr lim l (init σ ratio steps) = some st) (i : Nat)
    (hi : rank i + 1 < lim) (hc : pr.leaf i = false) :
    ∃ u st' us, unitary pr lim i st = some (some u, st') ∧ st'.σ = st.σ ∧
      us.map some = (steps i).map (fun r => ((unitary pr lim r.id st).bind Prod.fst)) ∧ u = orderedProduct pr.alg us := by
  obtain ⟨val, st', hv, e1, e2⟩ := C14_current_partial T C σ ratio lim l hl st e i hi
  obtain ⟨hs, -, -⟩ := run_inv T C l hl _ _ rfl (fun val _ => init_inv pr σ ratio steps val) e
  refine ⟨val i, st', (steps i).map (fun r => val r.id), e1, e2, ?_, ?_⟩
  · rw [List.map_map]
    apply List.map_congr_left
    intro r hr
    have hrk := C.rank i hc r hr
    obtain ⟨val2, st2, hv2, e3, -⟩ := C14_current_partial T C σ ratio lim l hl st e r.id (by omega)
    rw [e3]
    show some (val r.id) = some (val2 r.id)
    rw [fromScratch_unique (st := st) (fun i hl r hr => C.rank i hl r (hs ▸ hr)) hv hv2 (rank r.id + 1) r.id (by omega)]
  · rw [hv.comp i hc, hs]
    have gen : ∀ (us : List M) (acc : M), us.foldl (fun (a : M) u => pr.alg.mul u a) acc =
        pr.alg.mul (orderedProduct pr.alg us) acc := by
      intro us
      induction us with
      | nil => intro acc; simp [orderedProduct, one_mul]
      | cons u us ih =>
        intro acc
        rw [List.foldl_cons, ih]
        cases us with
        | nil => simp [orderedProduct, one_mul]
        | cons u' us => show _ = pr.alg.mul (pr.alg.mul (orderedProduct pr.alg (u' :: us)) u) acc; rw [assoc]
    have := gen ((steps i).map fun r => val r.id) pr.alg.one
    rw [List.foldl_map] at this
    rw [this, pr.alg.mul_one]

/-- C18: a leaf is computed with its updates in force, from the current parameters otherwise. -/
theorem C18_updates_partial {pr : Prog P V M} {steps : Nat → List Ref} {rank : Nat → Nat} (T : Tame pr steps)
    (C : Covers pr steps rank) (σ : P → V) (ratio : Nat → V) (lim : Nat) (l : List (Cmd P V)) (hl : ∀ c ∈ l, c.Plain)
    (st : St P V M) (e : run pr lim l (init σ ratio steps) = some st) (i : Nat) (hi : rank i + 1 < lim) (hc : pr.leaf i = true) :
    ∃ st', unitary pr lim i st = some (some (pr.U i (updated (pr.upds i) st.σ) (ratio i)), st') ∧ st'.σ = st.σ := by
  obtain ⟨val, st', hv, e1, e2⟩ := C14_current_partial T C σ ratio lim l hl st e i hi
  obtain ⟨-, hr, -⟩ := run_inv T C l hl _ _ rfl (fun val _ => init_inv pr σ ratio steps val) e
  refine ⟨st', ?_, e2⟩
  rw [e1, hv.leaf i hc, hr]
  rfl

end Verif.Cache
