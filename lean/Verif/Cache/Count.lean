import Verif.Cache.Props
/-!
# C15: exponentiations are not repeated
-/
namespace Verif.Cache
variable {P V M : Type} [DecidableEq P] [DecidableEq V]

/-- The restrictions under which exponentiations are counted: no updates, nothing fixed, and an evolution that is a step itself is
not used by an earlier step of the same protocol. -/
structure Ordered (pr : Prog P V M) (steps : Nat → List Ref) : Prop where
  noUpd : ∀ i, pr.upds i = []
  notFixed : ∀ i, pr.fixed i = false
  order : ∀ i l₁ r l₂, pr.leaf i = false → steps i = l₁ ++ r :: l₂ → ∀ j, Ref.orig j ∈ l₂ → pr.leaf j = true → ¬ Touch pr steps r.id j

/-- Exponentiations done, plus one if the next use needs one. -/
def pot (st : St P V M) (k : Nat) : Nat := st.cnt k + if st.flag k = true ∨ st.mat k = none then 1 else 0

/-! ### The getter and clearing -/

theorem eff_frame (pr : Prog P V M) (steps : Nat → List Ref) : ∀ (lim i : Nat) (st : St P V M) (b : Bool) (st' : St P V M),
    st.steps = steps → eff pr lim i st = some (b, st') →
      ∀ j, st'.flag j = st.flag j ∨ (pr.leaf j = false ∧ Touch pr steps i j) := by
  intro lim
  induction lim with
  | zero => intro i st b st' _ e; simp [eff] at e
  | succ lim ih =>
    intro i st b st' hs e
    unfold eff at e
    split at e
    · simp only [Option.some.injEq, Prod.mk.injEq] at e
      obtain ⟨rfl, rfl⟩ := e
      exact fun _ => Or.inl rfl
    · rename_i hl
      have hl := not_leaf hl
      have loop : ∀ (rs : List Ref), (∀ r ∈ rs, r ∈ steps i) → ∀ (st : St P V M) (b : Bool) (st' : St P V M), st.steps = steps →
          effLoop (eff pr lim) rs st = some (b, st') →
          ∀ j, st'.flag j = st.flag j ∨ (pr.leaf j = false ∧ Touch pr steps i j) := by
        intro rs
        induction rs with
        | nil =>
          intro _ st b st' _ e
          simp only [effLoop, Option.some.injEq, Prod.mk.injEq] at e
          obtain ⟨rfl, rfl⟩ := e
          exact fun _ => Or.inl rfl
        | cons r rs ihr =>
          intro hm st b st' hs e j
          unfold effLoop at e
          split at e
          · simp at e
          · rename_i st1 e1
            simp only [Option.some.injEq, Prod.mk.injEq] at e
            obtain ⟨rfl, rfl⟩ := e
            rcases ih _ _ _ _ hs e1 j with h | ⟨h1, h2⟩
            · exact Or.inl h
            · exact Or.inr ⟨h1, .head hl (hm r (by simp)) h2⟩
          · rename_i st1 e1
            rcases ihr (fun r h => hm r (by simp [h])) st1 b st' ((eff_spec pr steps _ _ _ _ _ hs e1).1.same.steps.trans hs) e j with h | h
            · rcases ih _ _ _ _ hs e1 j with h' | ⟨h1, h2⟩
              · exact Or.inl (h.trans h')
              · exact Or.inr ⟨h1, .head hl (hm r (by simp)) h2⟩
            · exact Or.inr h
      split at e
      · simp at e
      · rename_i st1 e1
        simp only [Option.some.injEq, Prod.mk.injEq] at e
        obtain ⟨rfl, rfl⟩ := e
        intro j
        by_cases hj : j = i
        · subst hj; exact Or.inr ⟨hl, .refl _⟩
        · rcases loop _ (fun r h => hs ▸ h) _ _ _ hs e1 j with h | h
          · left; simpa [setFlag, hj] using h
          · exact Or.inr h
      · rename_i st1 e1
        simp only [Option.some.injEq, Prod.mk.injEq] at e
        obtain ⟨rfl, rfl⟩ := e
        exact loop _ (fun r h => hs ▸ h) _ _ _ hs e1

theorem puGet_frame (pr : Prog P V M) (steps : Nat → List Ref) (lim : Nat) : ∀ (rs : List Ref) (st : St P V M) (bs : List Bool)
    (st' : St P V M), st.steps = steps → puGet pr lim rs st = some (bs, st') →
    (∀ j, st'.flag j = st.flag j ∨ (pr.leaf j = false ∧ ∃ r ∈ rs, Touch pr steps r.id j)) ∧
    ∀ (k j : Nat), pr.leaf j = true → rs[k]? = some (.orig j) → ∀ b, bs[k]? = some b → st'.flag j = b := by
  intro rs
  induction rs with
  | nil =>
    intro st bs st' _ e
    simp only [puGet, Option.some.injEq, Prod.mk.injEq] at e
    obtain ⟨rfl, rfl⟩ := e
    exact ⟨fun _ => Or.inl rfl, by simp⟩
  | cons r rs ih =>
    intro st bs st' hs e
    unfold puGet at e
    split at e
    · simp at e
    rename_i b st1 e1
    have g1 := (eff_spec pr steps lim _ _ _ _ hs e1).1
    split at e
    · simp at e
    rename_i bs2 st2 e2
    simp only [Option.some.injEq, Prod.mk.injEq] at e
    obtain ⟨rfl, rfl⟩ := e
    obtain ⟨h2, h3⟩ := ih st1 _ _ (g1.same.steps.trans hs) e2
    refine ⟨fun j => ?_, ?_⟩
    · rcases h2 j with h | ⟨h, q, hq, ht⟩
      · rcases eff_frame pr steps _ _ _ _ _ hs e1 j with h' | ⟨h', ht⟩
        · exact Or.inl (h.trans h')
        · exact Or.inr ⟨h', r, by simp, ht⟩
      · exact Or.inr ⟨h, q, by simp [hq], ht⟩
    · intro k j hl hk b' hb
      cases k with
      | succ k => exact h3 k j hl (by simpa using hk) b' (by simpa using hb)
      | zero =>
        simp only [List.getElem?_cons_zero, Option.some.injEq] at hk hb
        subst hk; subst hb
        rcases h2 j with h | ⟨h, -⟩
        · rw [h]
          cases lim with
          | zero => simp [eff] at e1
          | succ lim =>
            unfold eff at e1
            rw [show pr.leaf (Ref.orig j).id = true from hl] at e1
            simp only [if_true, Option.some.injEq, Prod.mk.injEq] at e1
            rw [← e1.2]; exact e1.1
        · rw [hl] at h; simp at h

theorem puSet_frame : ∀ (rs : List Ref) (bs : List Bool) (st : St P V M),
    (puSet rs bs st).σ = st.σ ∧ (puSet rs bs st).steps = st.steps ∧ (puSet rs bs st).ratio = st.ratio ∧
    (puSet rs bs st).mat = st.mat ∧ (puSet rs bs st).cnt = st.cnt ∧
    ∀ j, (puSet rs bs st).flag j = st.flag j ∨
      ∃ (k : Nat) (b : Bool), rs[k]? = some (Ref.orig j) ∧ bs[k]? = some b ∧ (puSet rs bs st).flag j = b := by
  intro rs
  induction rs with
  | nil => intro bs st; cases bs <;> exact ⟨rfl, rfl, rfl, rfl, rfl, fun _ => Or.inl rfl⟩
  | cons r rs ih =>
    intro bs st
    cases bs with
    | nil => cases r <;> exact ⟨rfl, rfl, rfl, rfl, rfl, fun _ => Or.inl rfl⟩
    | cons b bs =>
      cases r with
      | copy j hc =>
        obtain ⟨a1, a2, a3, a4, a5, a6⟩ := ih bs st
        refine ⟨a1, a2, a3, a4, a5, fun j => ?_⟩
        rcases a6 j with h | ⟨k, b', h1, h2, h3⟩
        · exact Or.inl h
        · exact Or.inr ⟨k + 1, b', by simpa using h1, by simpa using h2, h3⟩
      | orig i =>
        obtain ⟨a1, a2, a3, a4, a5, a6⟩ := ih bs (setFlag st i b)
        refine ⟨a1, a2, a3, a4, a5, fun j => ?_⟩
        rcases a6 j with h | ⟨k, b', h1, h2, h3⟩
        · by_cases hj : j = i
          · subst hj
            right
            refine ⟨0, b, rfl, rfl, ?_⟩
            show (puSet rs bs (setFlag st j b)).flag j = b
            rw [h]; simp [setFlag]
          · left
            show (puSet rs bs (setFlag st i b)).flag j = st.flag j
            rw [h]; simp [setFlag, hj]
        · exact Or.inr ⟨k + 1, b', by simpa using h1, by simpa using h2, h3⟩

theorem Touch.of_leaf {pr : Prog P V M} {steps : Nat → List Ref} {i j : Nat} (h : Touch pr steps i j) (hl : pr.leaf i = true) :
    j = i := by
  cases h with
  | refl => rfl
  | head h1 => rw [hl] at h1; simp at h1

/-! ### The calls -/

/-- What a call of `unitary()` or `getUnitary()` of `i` does to marks and counts. -/
structure Eff (pr : Prog P V M) (steps : Nat → List Ref) (i : Nat) (st st' : St P V M) : Prop where
  same : Same st st'
  flag : ∀ j, ¬ Touch pr steps i j → st'.flag j = st.flag j
  mat : ∀ j, ¬ Touch pr steps i j → st'.mat j = st.mat j
  cnt : ∀ j, ¬ Touch pr steps i j → st'.cnt j = st.cnt j
  pot : ∀ k, pr.leaf k = true → pot st' k ≤ pot st k
  clean : ∀ j, Touch pr steps i j → st'.flag j = false

theorem pot_congr {st st' : St P V M} {k : Nat} (h1 : st'.cnt k = st.cnt k) (h2 : st'.flag k = st.flag k)
    (h3 : st'.mat k = st.mat k) : pot st' k = pot st k := by unfold pot; rw [h1, h2, h3]

theorem eff_pot {pr : Prog P V M} {steps : Nat → List Ref} {lim i : Nat} {st st' : St P V M} {b : Bool} (hs : st.steps = steps)
    (e : eff pr lim i st = some (b, st')) (k : Nat) (hk : pr.leaf k = true) : pot st' k = pot st k := by
  have g := (eff_spec pr steps lim _ _ _ _ hs e).1
  refine pot_congr (by rw [g.cnt]) ?_ (by rw [g.mat])
  rcases eff_frame pr steps _ _ _ _ _ hs e k with h | ⟨h, -⟩
  · exact h
  · rw [hk] at h; simp at h

theorem setMat_pot (st : St P V M) (i : Nat) (m : Option M) (hm : st.mat i = m) (k : Nat) : pot (setMat st i m) k = pot st k := by
  refine pot_congr rfl rfl ?_
  unfold setMat
  by_cases h : k = i
  · subst h; simp [hm]
  · simp [h]

variable {pr : Prog P V M} {steps : Nat → List Ref}

/-- Storing what is stored. -/
theorem Eff.setMat {i : Nat} {st st' : St P V M} (h : Eff pr steps i st st') : Eff pr steps i st (Verif.Cache.setMat st' i (st'.mat i)) where
  same := ⟨h.same.σ, h.same.ratio, h.same.steps⟩
  flag := h.flag
  mat := fun j hj => by
    have hne : j ≠ i := fun e => hj (e ▸ .refl _)
    simp only [Verif.Cache.setMat, if_neg hne]; exact h.mat j hj
  cnt := h.cnt
  pot := fun k hk => by rw [setMat_pot _ _ _ rfl]; exact h.pot k hk
  clean := h.clean

section
variable {lim : Nat} {g : Nat → St P V M → Option (Option M × St P V M)}
  (hg : ∀ i st r st', st.steps = steps → g i st = some (r, st') → r = st'.mat i ∧ Eff pr steps i st st')
include hg

theorem unitaryOf_eff (O : Ordered pr steps) (i : Nat) (st : St P V M) (r : Option M) (st' : St P V M) (hs : st.steps = steps)
    (e : unitaryOf pr lim g i st = some (r, st')) : r = st'.mat i ∧ Eff pr steps i st st' := by
  unfold unitaryOf at e
  split at e
  · simp at e
  rename_i b st1 e1
  obtain ⟨g1, f1⟩ := eff_spec pr steps _ _ _ _ _ hs e1
  have hs1 := g1.same.steps.trans hs
  have call : ∀ m st2, g i st1 = some (m, st2) → Eff pr steps i st (setMat st2 i m) ∧ (setMat st2 i m).mat i = m := by
    intro m st2 e2
    obtain ⟨rfl, q⟩ := hg i st1 m st2 hs1 e2
    refine ⟨Eff.setMat ⟨g1.same.trans q.same, fun j hj => ?_, fun j hj => ?_, fun j hj => ?_, fun k hk => ?_, q.clean⟩, by simp [setMat]⟩
    · rw [q.flag j hj]
      rcases eff_frame pr steps _ _ _ _ _ hs e1 j with h | ⟨-, h⟩
      · exact h
      · exact absurd h hj
    · rw [q.mat j hj, g1.mat]
    · rw [q.cnt j hj, g1.cnt]
    · rw [← eff_pot hs e1 k hk]; exact q.pot k hk
  rw [O.notFixed] at e
  cases b with
  | true =>
    simp only [if_true, Bool.false_eq_true, if_false] at e
    split at e
    · simp at e
    rename_i m st2 e2
    simp only [Option.some.injEq, Prod.mk.injEq] at e
    obtain ⟨rfl, rfl⟩ := e
    exact ⟨rfl, (call m st2 e2).1⟩
  | false =>
    simp only [Bool.false_eq_true, if_false] at e
    obtain ⟨rfl, f1⟩ := f1 rfl
    split at e
    · rename_i m hm
      simp only [Option.some.injEq, Prod.mk.injEq] at e
      obtain ⟨rfl, rfl⟩ := e
      exact ⟨hm.symm, .refl _, fun _ _ => rfl, fun _ _ => rfl, fun _ _ => rfl, fun _ _ => Nat.le_refl _, f1⟩
    · split at e
      · simp at e
      rename_i m st2 e2
      simp only [Option.some.injEq, Prod.mk.injEq] at e
      obtain ⟨rfl, rfl⟩ := e
      exact ⟨rfl, (call m st2 e2).1⟩

theorem getRef_eff (O : Ordered pr steps) (r : Ref) (st : St P V M) (m : Option M) (st' : St P V M) (hs : st.steps = steps)
    (e : getRef pr lim g r st = some (m, st')) : Eff pr steps r.id st st' := by
  cases r with
  | orig j => exact (hg j st m st' hs e).2
  | copy j hc =>
    unfold getRef at e
    dsimp only at e
    split at e
    · simp at e
    rename_i m1 st1 e1
    have q := (unitaryOf_eff hg O j st _ _ hs e1).2
    split at e
    · split at e
      · simp at e
      rename_i h st2 e2
      simp only [Option.some.injEq, Prod.mk.injEq] at e
      obtain ⟨-, rfl⟩ := e
      have : Same st1 st2 ∧ st2.flag = st1.flag ∧ st2.mat = st1.mat ∧ st2.cnt = st1.cnt := by
        unfold hcOf at e2
        split at e2
        · simp only [Option.some.injEq, Prod.mk.injEq] at e2
          rw [← e2.2]; exact ⟨.refl _, rfl, rfl, rfl⟩
        · split at e2
          · simp at e2
          · simp only [Option.some.injEq, Prod.mk.injEq] at e2
            rw [← e2.2]; exact ⟨⟨rfl, rfl, rfl⟩, rfl, rfl, rfl⟩
      obtain ⟨a1, a2, a3, a4⟩ := this
      exact ⟨q.same.trans a1, fun j hj => by rw [a2, q.flag j hj], fun j hj => by rw [a3, q.mat j hj],
        fun j hj => by rw [a4, q.cnt j hj], fun k hk => by rw [pot_congr (st := st1) (by rw [a4]) (by rw [a2]) (by rw [a3])]; exact q.pot k hk,
        fun j hj => by rw [a2, q.clean j hj]⟩
    · simp only [Option.some.injEq, Prod.mk.injEq] at e
      obtain ⟨-, rfl⟩ := e
      exact q

/-- Touched by one of the steps. -/
def TouchL (pr : Prog P V M) (steps : Nat → List Ref) (rs : List Ref) (j : Nat) : Prop := ∃ r ∈ rs, Touch pr steps r.id j

theorem createLoop_eff (O : Ordered pr steps) (i : Nat) (hl : pr.leaf i = false) : ∀ (rs ls : List Ref), steps i = ls ++ rs →
    ∀ (acc : M) (st : St P V M) (u : M) (st' : St P V M), st.steps = steps →
    (∀ j, TouchL pr steps ls j → ¬ TouchL pr steps rs j → st.flag j = false) →
    createLoop pr lim g rs acc st = some (u, st') →
    Same st st' ∧ (∀ j, ¬ TouchL pr steps rs j → st'.flag j = st.flag j ∧ st'.mat j = st.mat j ∧ st'.cnt j = st.cnt j) ∧
    (∀ k, pr.leaf k = true → pot st' k ≤ pot st k) ∧ (∀ j, TouchL pr steps (steps i) j → st'.flag j = false) := by
  intro rs
  induction rs with
  | nil =>
    intro ls hsp acc st u st' hs hd e
    simp only [createLoop, Option.some.injEq, Prod.mk.injEq] at e
    obtain ⟨-, rfl⟩ := e
    refine ⟨.refl _, fun _ _ => ⟨rfl, rfl, rfl⟩, fun _ _ => Nat.le_refl _, fun j hj => hd j ?_ (by simp [TouchL])⟩
    simpa [hsp] using hj
  | cons r rs ih =>
    intro ls hsp acc st u st' hs hd e
    unfold createLoop at e
    split at e
    · simp at e
    rename_i vals st1 e1
    have g1 := (puGet_spec pr steps lim _ _ _ _ hs e1).1
    obtain ⟨p1, p2⟩ := puGet_frame pr steps lim _ _ _ _ hs e1
    have hs1 := g1.same.steps.trans hs
    split at e
    case h_2 => simp at e
    rename_i u1 st2 e2
    have q := getRef_eff hg O r st1 _ st2 hs1 e2
    obtain ⟨s1, s2, s3, s4, s5, s6⟩ := puSet_frame rs vals st2
    have mk : ∀ j, ¬ TouchL pr steps rs j → (puSet rs vals st2).flag j = st2.flag j := by
      intro j hj
      rcases s6 j with h | ⟨k, b, h1, -, -⟩
      · exact h
      · exact absurd ⟨_, List.mem_of_getElem? h1, .refl _⟩ hj
    have hd' : ∀ j, TouchL pr steps (ls ++ [r]) j → ¬ TouchL pr steps rs j → (puSet rs vals st2).flag j = false := by
      intro j hj hn
      rw [mk j hn]
      by_cases ht : Touch pr steps r.id j
      · exact q.clean j ht
      · rw [q.flag j ht]
        obtain ⟨r', hr', ht'⟩ := hj
        rcases List.mem_append.mp hr' with h | h
        · rcases p1 j with h' | ⟨-, h'⟩
          · rw [h']
            apply hd j ⟨r', h, ht'⟩
            rintro ⟨x, hx, hxt⟩
            rcases List.mem_cons.mp hx with rfl | hx
            · exact ht hxt
            · exact hn ⟨x, hx, hxt⟩
          · exact absurd h' hn
        · rw [List.mem_singleton] at h; subst h; exact absurd ht' ht
    have hsame : Same st (puSet rs vals st2) := (g1.same.trans q.same).trans ⟨s1, s3, s2⟩
    obtain ⟨a1, a2, a3, a4⟩ := ih (ls ++ [r]) (by simp [hsp]) _ _ _ _ (hsame.steps.trans hs) hd' e
    refine ⟨hsame.trans a1, fun j hj => ?_, fun k hk => ?_, a4⟩
    · have h1 : ¬ TouchL pr steps rs j := fun ⟨x, hx, ht⟩ => hj ⟨x, by simp [hx], ht⟩
      have h2 : ¬ Touch pr steps r.id j := fun ht => hj ⟨r, by simp, ht⟩
      obtain ⟨b1, b2, b3⟩ := a2 j h1
      refine ⟨?_, ?_, ?_⟩
      · rw [b1, mk j h1, q.flag j h2]
        rcases p1 j with h' | ⟨-, h'⟩
        · exact h'
        · exact absurd h' h1
      · rw [b2, s4, q.mat j h2, g1.mat]
      · rw [b3, s5, q.cnt j h2, g1.cnt]
    · refine Nat.le_trans (a3 k hk) (Nat.le_trans ?_ (Nat.le_trans (q.pot k hk) (Nat.le_of_eq ?_)))
      · rcases s6 k with h | ⟨x, b, h1, h2, h3⟩
        · exact Nat.le_of_eq (pot_congr (by rw [s5]) h (by rw [s4]))
        · refine Nat.le_of_eq (pot_congr (by rw [s5]) ?_ (by rw [s4]))
          have hnt := O.order i ls r rs hl hsp k (List.mem_of_getElem? h1) hk
          rw [h3, q.flag k hnt]
          exact (p2 x k hk h1 b h2).symm
      · refine pot_congr (by rw [g1.cnt]) ?_ (by rw [g1.mat])
        rcases p1 k with h | ⟨h, -⟩
        · exact h
        · rw [hk] at h; simp at h

end

theorem touch_cases {i j : Nat} (hl : pr.leaf i = false) : Touch pr steps i j ↔ j = i ∨ TouchL pr steps (steps i) j := by
  constructor
  · intro h
    cases h with
    | refl => exact Or.inl rfl
    | head _ hr ht => exact Or.inr ⟨_, hr, ht⟩
  · rintro (rfl | ⟨r, hr, ht⟩)
    · exact .refl _
    · exact .head hl hr ht

theorem getU_eff (O : Ordered pr steps) : ∀ (lim i : Nat) (st : St P V M) (r : Option M) (st' : St P V M), st.steps = steps →
    getU pr lim i st = some (r, st') → r = st'.mat i ∧ Eff pr steps i st st' := by
  intro lim
  induction lim with
  | zero => intro i st r st' _ e; simp [getU] at e
  | succ lim ih =>
    intro i st r st' hs e
    unfold getU at e
    rw [O.noUpd i] at e
    simp only [setups, setbacks] at e
    split at e
    · simp at e
    rename_i m st2 e2
    split at e
    · simp at e
    rename_i st3 e3
    simp only [Option.some.injEq, Prod.mk.injEq] at e
    obtain ⟨rfl, rfl⟩ := e
    refine ⟨rfl, ?_⟩
    -- the computation, up to the flag of `i` itself
    have main : m = st2.mat i ∧ Same st st2 ∧ (∀ j, ¬ Touch pr steps i j → st2.flag j = st.flag j ∧ st2.mat j = st.mat j ∧ st2.cnt j = st.cnt j) ∧
        (∀ k, pr.leaf k = true → k ≠ i → pot st2 k ≤ pot st k) ∧ (pr.leaf i = true → st2.cnt i ≤ pot st i ∧
          (m = none → st2.cnt i + 1 ≤ pot st i)) ∧
        (∀ j, j ≠ i → Touch pr steps i j → st2.flag j = false) := by
      unfold defGet at e2
      split at e2
      · simp at e2
      rename_i b st1 e1
      obtain ⟨g1, f1⟩ := eff_spec pr steps _ _ _ _ _ hs e1
      have hs1 := g1.same.steps.trans hs
      have fr : ∀ j, ¬ Touch pr steps i j → st1.flag j = st.flag j := by
        intro j hj
        rcases eff_frame pr steps _ _ _ _ _ hs e1 j with h | ⟨-, h⟩
        · exact h
        · exact absurd h hj
      split at e2
      · rename_i hcr
        split at e2
        · simp at e2
        rename_i u st4 e4
        simp only [Option.some.injEq, Prod.mk.injEq] at e2
        obtain ⟨rfl, rfl⟩ := e2
        refine ⟨rfl, ?_⟩
        unfold create at e4
        split at e4
        · rename_i hl
          simp only [Option.some.injEq, Prod.mk.injEq] at e4
          obtain ⟨rfl, rfl⟩ := e4
          have hst1 : b = st.flag i ∧ st1 = st := by
            cases lim with
            | zero => simp [eff] at e1
            | succ lim =>
              unfold eff at e1
              rw [hl] at e1
              simp only [if_true, Option.some.injEq, Prod.mk.injEq] at e1
              exact ⟨e1.1.symm, e1.2.symm⟩
          obtain ⟨rfl, rfl⟩ := hst1
          refine ⟨⟨rfl, rfl, rfl⟩, fun j hj => ?_, fun k hk hne => ?_, fun _ => ?_, fun j hne ht => ?_⟩
          · have hne : j ≠ i := fun h => hj (h ▸ .refl _)
            exact ⟨rfl, by simp [setMat, hne], by simp [setMat, hne]⟩
          · exact Nat.le_of_eq (pot_congr (by simp [setMat, hne]) rfl (by simp [setMat, hne]))
          · refine ⟨?_, by simp [setMat]⟩
            show (if i = i then st1.cnt i + 1 else st1.cnt i) ≤ pot st1 i
            rw [if_pos rfl]
            have hx : st1.flag i = true ∨ st1.mat i = none := by
              rw [O.notFixed] at hcr
              cases hf : st1.flag i with
              | true => exact Or.inl rfl
              | false =>
                rw [hf] at hcr
                right
                simpa using hcr
            unfold pot
            rw [if_pos hx]
            exact Nat.le_refl _
          · exact absurd (ht.of_leaf hl) hne
        · rename_i hl
          have hl := not_leaf hl
          obtain ⟨a1, a2, a3, a4⟩ := createLoop_eff (fun i st r st' a b => ih i st r st' a b) O i hl (st1.steps i) []
            (by rw [hs1]; rfl) _ _ _ _ hs1 (by rintro j ⟨r, hr, -⟩; simp at hr) e4
          rw [hs1] at a2
          refine ⟨⟨a1.σ.trans g1.same.σ, a1.ratio.trans g1.same.ratio, a1.steps.trans g1.same.steps⟩, fun j hj => ?_,
            fun k hk hne => ?_, fun h => by rw [hl] at h; simp at h, fun j hne ht => ?_⟩
          · have hne : j ≠ i := fun h => hj (h ▸ .refl _)
            have hn : ¬ TouchL pr steps (steps i) j := fun h => hj ((touch_cases hl).mpr (Or.inr h))
            obtain ⟨b1, b2, b3⟩ := a2 j hn
            refine ⟨?_, ?_, ?_⟩
            · show st4.flag j = _; rw [b1, fr j hj]
            · simp only [setMat, if_neg hne]; rw [b2, g1.mat]
            · show st4.cnt j = _; rw [b3, g1.cnt]
          · rw [← eff_pot hs e1 k hk]
            refine Nat.le_trans (Nat.le_of_eq ?_) (a3 k hk)
            exact pot_congr rfl rfl (by simp [setMat, hne])
          · rcases (touch_cases hl).mp ht with h | h
            · exact absurd h hne
            · exact a4 j h
      · rename_i hcr
        simp only [Option.some.injEq, Prod.mk.injEq] at e2
        obtain ⟨rfl, rfl⟩ := e2
        rw [O.notFixed] at hcr
        cases b with
        | true => simp at hcr
        | false =>
          obtain ⟨rfl, f1⟩ := f1 rfl
          refine ⟨rfl, .refl _, fun _ _ => ⟨rfl, rfl, rfl⟩, fun _ _ _ => Nat.le_refl _, fun _ => ?_, fun j _ ht => f1 j ht⟩
          refine ⟨by unfold pot; omega, fun h => ?_⟩
          rw [h] at hcr; simp at hcr
    obtain ⟨m1, m2, m3, m4, m5, m6⟩ := main
    obtain ⟨c1, c2, -, c4, c5, c6⟩ := clear_spec pr steps lim i _ _ (show (setMat st2 i m).steps = steps from m2.steps.trans hs) e3
    have cf : ∀ j, ¬ Touch pr steps i j → st3.flag j = st2.flag j := by
      intro j hj
      rcases c5 j with h | ⟨h, -⟩
      · exact h
      · exact absurd h.touch hj
    have cm : st3.mat = st2.mat := by
      rw [c2]; funext j; simp only [setMat]; split
      · rename_i h; subst h; exact m1
      · rfl
    refine ⟨⟨c1.σ.trans m2.σ, c1.ratio.trans m2.ratio, c1.steps.trans m2.steps⟩, fun j hj => by rw [cf j hj, (m3 j hj).1],
      fun j hj => by rw [cm, (m3 j hj).2.1], fun j hj => by rw [c4]; exact (m3 j hj).2.2, fun k hk => ?_, fun j hj => ?_⟩
    · by_cases hki : k = i
      · subst hki
        obtain ⟨n1, n2⟩ := m5 hk
        have : pot st3 k = st2.cnt k + if m = none then 1 else 0 := by
          unfold pot
          rw [c4, c6 k (.refl _), cm, ← m1]
          simp [setMat]
        rw [this]
        split
        · rename_i hm; exact n2 hm
        · exact n1
      · refine Nat.le_trans ?_ (m4 k hk hki)
        unfold pot
        rw [cm, c4]
        show st2.cnt k + _ ≤ _
        rcases c5 k with h | ⟨-, h⟩
        · rw [h]; exact Nat.le_refl _
        · rw [h]
          apply Nat.add_le_add_left
          split
          · rename_i hx
            rw [if_pos (Or.inr (by simpa using hx))]
            exact Nat.le_refl _
          · omega
    · by_cases hji : j = i
      · subst hji; exact c6 j (.refl _)
      · rcases c5 j with h | ⟨-, h⟩
        · rw [h]; exact m6 j hji hj
        · exact h

end Verif.Cache

