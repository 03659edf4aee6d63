import Verif.Cache.Count
/-!
# C15: the theorems
-/
namespace Verif.Cache
variable {P V M : Type} [DecidableEq P] [DecidableEq V]

/-- The number of assignments in a history that change the value of a parameter `k` depends on. -/
def changes (pr : Prog P V M) (k : Nat) : List (Cmd P V) → (P → V) → Nat
  | [], _ => 0
  | .assign p v :: l, σ => (if v ≠ σ p ∧ pr.marks p k = true then 1 else 0) + changes pr k l (fun q => if q = p then v else σ q)
  | _ :: l, σ => changes pr k l σ

/-- C15: in every history of assignments and of calls of `unitary()` and `getUnitary()` of any protocols, an evolution is
exponentiated at most once more than its parameters change value. -/
theorem C15_bound_partial {pr : Prog P V M} {steps : Nat → List Ref} (O : Ordered pr steps) (lim k : Nat)
    (hk : pr.leaf k = true) (σ : P → V) (ratio : Nat → V) (l : List (Cmd P V)) (hl : ∀ c ∈ l, c.Plain)
    (st : St P V M) (e : run pr lim l (init σ ratio steps) = some st) : st.cnt k ≤ changes pr k l σ + 1 := by
  have key : ∀ (l : List (Cmd P V)), (∀ c ∈ l, c.Plain) → ∀ (st st' : St P V M), st.steps = steps →
      run pr lim l st = some st' → pot st' k ≤ changes pr k l st.σ + pot st k := by
    intro l
    induction l with
    | nil =>
      intro _ st st' _ e
      simp only [run, Option.some.injEq] at e
      subst e
      simp [changes]
    | cons c l ih =>
      intro hl st st' hs e
      unfold run at e
      split at e
      · simp at e
      rename_i st1 e1
      have hl' : ∀ c ∈ l, c.Plain := fun c hc => hl c (by simp [hc])
      have call : ∀ i r, (getU pr lim i st = some (r, st1) ∨ unitary pr lim i st = some (r, st1)) →
          pot st' k ≤ changes pr k l st.σ + pot st k := by
        intro i r h
        have q : Eff pr steps i st st1 := by
          rcases h with h | h
          · exact (getU_eff O lim i st r st1 hs h).2
          · exact (unitaryOf_eff (fun i st r st' a b => getU_eff O lim i st r st' a b) O i st r st1 hs h).2
        have := ih hl' st1 st' (q.same.steps.trans hs) e
        rw [q.same.σ] at this
        have := q.pot k hk
        omega
      cases c with
      | assign p v =>
        simp only [exec, Option.some.injEq] at e1
        subst e1
        have h1 := ih hl' _ st' ((assign_rest pr p v st).2.1.trans hs) e
        have hσ : (assign pr p v st).σ = fun q => if q = p then v else st.σ q := funext fun q => assign_σ pr p v st q
        rw [hσ] at h1
        have h2 : pot (assign pr p v st) k ≤ (if v ≠ st.σ p ∧ pr.marks p k = true then 1 else 0) + pot st k := by
          unfold assign
          by_cases hv : v = st.σ p
          · rw [if_neg (by simpa using hv)]; omega
          · rw [if_pos hv]
            unfold pot
            dsimp only
            by_cases hm : pr.marks p k = true
            · have hx : (if v ≠ st.σ p ∧ pr.marks p k = true then 1 else 0) = 1 := if_pos ⟨hv, hm⟩
              rw [hx]
              split <;> split <;> omega
            · have hm' : pr.marks p k = false := not_leaf hm
              simp only [hm', Bool.or_false]
              omega
        unfold changes
        omega
      | unitary i =>
        simp only [exec, Option.map_eq_some_iff] at e1
        obtain ⟨⟨r, st2⟩, e2, rfl⟩ := e1
        exact call i r (Or.inr e2)
      | getUnitary i =>
        simp only [exec, Option.map_eq_some_iff] at e1
        obtain ⟨⟨r, st2⟩, e2, rfl⟩ := e1
        exact call i r (Or.inl e2)
      | setRatio i v => exact absurd (hl (.setRatio i v) (by simp)) (by simp [Cmd.Plain])
      | addStep i r => exact absurd (hl (.addStep i r) (by simp)) (by simp [Cmd.Plain])
      | prepare i => exact absurd (hl (.prepare i) (by simp)) (by simp [Cmd.Plain])
  have := key l hl _ _ rfl e
  have h0 : pot (init σ ratio steps : St P V M) k = 1 := by simp [pot, init]
  have h1 : st.cnt k ≤ pot st k := by unfold pot; omega
  have h2 : (init σ ratio steps : St P V M).σ = σ := rfl
  rw [h2] at this
  omega

theorem eff_clean {pr : Prog P V M} {steps : Nat → List Ref} {lim i : Nat} {st st' : St P V M} {b : Bool} (hs : st.steps = steps)
    (e : eff pr lim i st = some (b, st')) (hc : ∀ j, Touch pr steps i j → st.flag j = false) : b = false ∧ st' = st := by
  have key : ∀ (lim i : Nat), (∀ j, Touch pr steps i j → st.flag j = false) → ∀ b st', eff pr lim i st = some (b, st') →
      b = false ∧ st' = st := by
    intro lim
    induction lim with
    | zero => intro i _ b st' e; simp [eff] at e
    | succ lim ih =>
      intro i hc b st' e
      unfold eff at e
      split at e
      · simp only [Option.some.injEq, Prod.mk.injEq] at e
        obtain ⟨rfl, rfl⟩ := e
        exact ⟨hc i (.refl _), rfl⟩
      · rename_i hl
        have hl := not_leaf hl
        have loop : ∀ (rs : List Ref), (∀ r ∈ rs, r ∈ steps i) → ∀ b st', effLoop (eff pr lim) rs st = some (b, st') →
            b = false ∧ st' = st := by
          intro rs
          induction rs with
          | nil =>
            intro _ b st' e
            simp only [effLoop, Option.some.injEq, Prod.mk.injEq] at e
            exact ⟨e.1.symm, e.2.symm⟩
          | cons r rs ihr =>
            intro hm b st' e
            unfold effLoop at e
            split at e
            · simp at e
            · rename_i st1 e1
              have := (ih r.id (fun j hj => hc j (.head hl (hm r (by simp)) hj)) _ _ e1).1
              simp at this
            · rename_i st1 e1
              have hst := (ih r.id (fun j hj => hc j (.head hl (hm r (by simp)) hj)) _ _ e1).2
              rw [hst] at e
              exact ihr (fun r h => hm r (by simp [h])) b st' e
        split at e
        · simp at e
        · rename_i st1 e1
          have := (loop _ (fun r h => hs ▸ h) _ _ e1).1
          simp at this
        · rename_i st1 e1
          have hst := (loop _ (fun r h => hs ▸ h) _ _ e1).2
          rw [hst] at e
          simp only [Option.some.injEq, Prod.mk.injEq] at e
          obtain ⟨rfl, rfl⟩ := e
          exact ⟨hc i (.refl _), rfl⟩
  exact key lim i hc b st' e

/-- C15: once `unitary()` has returned a unitary, calling it again and assigning the values the parameters have, in any order and
any number of times, computes nothing: no count, no cache and no mark changes. -/
theorem C15_repeat_partial {pr : Prog P V M} {steps : Nat → List Ref} (O : Ordered pr steps) {rank : Nat → Nat}
    (H : ∀ i, pr.leaf i = false → ∀ r ∈ steps i, rank r.id < rank i) (lim i : Nat) (hlim : rank i < lim)
    (st : St P V M) (hs : st.steps = steps) (m : M) (st' : St P V M) (e : unitary pr lim i st = some (some m, st'))
    (l : List (Cmd P V)) (hl : ∀ c ∈ l, c = .unitary i ∨ ∃ p, c = .assign p (st'.σ p)) :
    run pr lim l st' = some st' ∧ unitary pr lim i st' = some (some m, st') := by
  obtain ⟨hm, q⟩ := unitaryOf_eff (fun i st r st' a b => getU_eff O lim i st r st' a b) O i st _ st' hs e
  have again : unitary pr lim i st' = some (some m, st') := by
    have hs' := q.same.steps.trans hs
    obtain ⟨⟨b, st1⟩, e1⟩ := eff_total H lim i st' hs' hlim
    obtain ⟨rfl, rfl⟩ := eff_clean hs' e1 q.clean
    unfold unitary unitaryOf
    rw [e1]
    dsimp only
    rw [← hm]
    rfl
  refine ⟨?_, again⟩
  induction l with
  | nil => rfl
  | cons c l ih =>
    have : exec pr lim c st' = some st' := by
      rcases hl c (by simp) with rfl | ⟨p, rfl⟩
      · simp [exec, again]
      · simp [exec, assign]
    unfold run
    rw [this]
    exact ih (fun c hc => hl c (by simp [hc]))

end Verif.Cache
