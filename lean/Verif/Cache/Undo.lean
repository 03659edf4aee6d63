import Verif.Cache.Findings

/-!
# C20: exactly which updates are undone

`Update._setup` and `_setback` (`QPro.py:498-508`) around the computation of the unitary of one evolution (`QPro.py:216-224`).
-/
namespace Verif.Cache

variable {P V M : Type} [DecidableEq P] [DecidableEq V]

/-- The values which the updates give to an attribute, in order. -/
def valuesOf (p : P) (pvs : List (P × V)) : List V := (pvs.filter fun pv => pv.1 = p).map Prod.snd

/-- The values `vs`, assigned one after the other to an attribute with value `v0`, do not change it, or the last change
is a change from `v0`. -/
def Undone (v0 : V) (vs : List V) : Prop :=
  (∀ v ∈ vs, v = v0) ∨ ∃ (l : List V) (w : V) (m : Nat), w ≠ v0 ∧ v0 :: vs = l ++ v0 :: List.replicate (m + 1) w

/-- The value after setting back: that before the last change. -/
def memOf (cur : V) : List V → V → V
  | [], x => x
  | v :: vs, x => memOf v vs (if v ≠ cur then cur else x)

theorem memOf_const (cur x : V) (vs : List V) (h : ∀ v ∈ vs, v = cur) : memOf cur vs x = x := by
  induction vs with
  | nil => rfl
  | cons v vs ih =>
    have hv : v = cur := h v (by simp)
    subst hv
    simp only [memOf, ne_eq, not_true_eq_false, if_false]
    exact ih fun w hw => h w (by simp [hw])

theorem memOf_form (a w : V) (m : Nat) (h : w ≠ a) : ∀ (l : List V) (cur : V) (vs : List V) (x : V),
    cur :: vs = l ++ a :: List.replicate (m + 1) w → memOf cur vs x = a := by
  intro l
  induction l with
  | nil =>
    intro cur vs x e
    simp only [List.nil_append, List.cons.injEq] at e
    obtain ⟨rfl, rfl⟩ := e
    rw [List.replicate_succ]
    simp only [memOf, ne_eq, h, not_false_eq_true, if_true]
    exact memOf_const w cur _ fun v hv => List.eq_of_mem_replicate hv
  | cons b l ih =>
    intro cur vs x e
    simp only [List.cons_append, List.cons.injEq] at e
    obtain ⟨rfl, e⟩ := e
    cases vs with
    | nil => simp at e
    | cons c vs => exact ih c vs _ e

theorem memOf_cases (vs : List V) : ∀ cur : V, (∀ v ∈ vs, v = cur) ∨
    ∃ (l : List V) (a w : V) (m : Nat), w ≠ a ∧ cur :: vs = l ++ a :: List.replicate (m + 1) w := by
  induction vs with
  | nil => intro cur; left; simp
  | cons v vs ih =>
    intro cur
    rcases ih v with h | ⟨l, a, w, m, hw, e⟩
    · by_cases hv : v = cur
      · subst hv
        left
        intro u hu
        rcases List.mem_cons.1 hu with hu | hu
        · exact hu
        · exact h u hu
      · right
        refine ⟨[], cur, v, vs.length, hv, ?_⟩
        rw [List.replicate_succ, List.nil_append, ← List.eq_replicate_of_mem h]
    · exact Or.inr ⟨cur :: l, a, w, m, hw, by rw [e]; rfl⟩

theorem undone_iff (v0 : V) (vs : List V) : memOf v0 vs ((v0 :: vs).getLast (by simp)) = v0 ↔ Undone v0 vs := by
  constructor
  · intro h
    rcases memOf_cases vs v0 with h' | ⟨l, a, w, m, hw, e⟩
    · exact Or.inl h'
    · rw [memOf_form a w m hw l v0 vs _ e] at h
      subst h
      exact Or.inr ⟨l, w, m, hw, e⟩
  · rintro (h | ⟨l, w, m, hw, e⟩)
    · rw [memOf_const _ _ _ h]
      rcases List.mem_cons.1 (List.getLast_mem (l := v0 :: vs) (by simp)) with e | e
      · exact e
      · exact h _ e
    · exact memOf_form v0 w m hw l v0 vs _ e

theorem setups_mem (pr : Prog P V M) : ∀ (pvs : List (P × V)) (st : St P V M), ∃ ms st1,
    setups pr (pvs.map fun pv => ⟨[pv.1], pv.2⟩) st = some (ms, st1) ∧ st1.steps = st.steps ∧
    (∀ q, st1.σ q = (st.σ q :: valuesOf q pvs).getLast (by simp)) ∧
    ∀ (st2 : St P V M) (q : P), (setbacks pr (pvs.map fun pv => ⟨[pv.1], pv.2⟩) ms st2).σ q = memOf (st.σ q) (valuesOf q pvs) (st2.σ q) := by
  intro pvs
  induction pvs with
  | nil => intro st; exact ⟨[], st, rfl, rfl, fun q => rfl, fun st2 q => rfl⟩
  | cons pv pvs ih =>
    intro st
    obtain ⟨p, v⟩ := pv
    obtain ⟨ms, st1, e, hs, h1, h2⟩ := ih (assign pr p v st)
    refine ⟨st.σ p :: ms, st1, ?_, ?_, fun q => ?_, fun st2 q => ?_⟩
    · simp only [List.map_cons, setups, setup, runUpdate, List.foldl_cons, List.foldl_nil, e]
    · rw [hs]; unfold assign; split <;> rfl
    · rw [h1 q]
      by_cases hq : p = q
      · subst hq
        simp [valuesOf, assign_σ]
      · have hq' : ¬ q = p := fun h => hq h.symm
        simp [valuesOf, assign_σ, hq, hq']
    · simp only [List.map_cons, setbacks]
      rw [h2]
      have hb : (setback pr ⟨[p], v⟩ (st.σ p) st2).σ q = if q = p ∧ v ≠ st.σ p then st.σ p else st2.σ q := by
        unfold setback
        dsimp only
        by_cases hv : v = st.σ p
        · simp [hv]
        · rw [if_pos hv, runUpdate_σ]
          by_cases hq : q = p <;> simp [hq, hv]
      rw [hb, assign_σ]
      by_cases hq : q = p
      · subst hq
        simp [valuesOf, memOf]
      · have hq' : ¬ p = q := fun h => hq h.symm
        simp [valuesOf, hq, hq']

/-- What the computation of the unitary of an evolution does to the parameters: setting up and setting back, nothing else. -/
theorem getU_leaf_σ (pr : Prog P V M) (lim i : Nat) (hl : pr.leaf i = true) (st st' : St P V M) (r : Option M)
    (e : getU pr lim i st = some (r, st')) :
    ∃ ms st1 st2, setups pr (pr.upds i) st = some (ms, st1) ∧ st2.σ = st1.σ ∧ st'.σ = (setbacks pr (pr.upds i) ms st2).σ := by
  cases lim with
  | zero => simp [getU] at e
  | succ lim =>
    unfold getU at e
    split at e
    · simp at e
    rename_i ms st1 e1
    split at e
    · simp at e
    rename_i m st2 e2
    split at e
    · simp at e
    rename_i st3 e3
    simp only [Option.some.injEq, Prod.mk.injEq] at e
    obtain ⟨-, rfl⟩ := e
    refine ⟨ms, st1, setMat st2 i m, e1, ?_, (clear_spec pr _ lim _ _ _ rfl e3).1.σ⟩
    show st2.σ = st1.σ
    unfold defGet at e2
    split at e2
    · simp at e2
    rename_i b st4 e4
    have g1 := (eff_spec pr st1.steps _ _ _ _ _ rfl e4).1
    split at e2
    · split at e2
      · simp at e2
      rename_i u st5 e5
      simp only [Option.some.injEq, Prod.mk.injEq] at e2
      obtain ⟨-, rfl⟩ := e2
      show st5.σ = _
      unfold create at e5
      rw [if_pos hl] at e5
      simp only [Option.some.injEq, Prod.mk.injEq] at e5
      rw [← e5.2]; exact g1.same.σ
    · simp only [Option.some.injEq, Prod.mk.injEq] at e2
      rw [← e2.2]; exact g1.same.σ

/-- C20 (exactly when): after the unitary of an evolution with updates of single systems was computed, all parameters have the values they
had before if and only if for every attribute the updates do not change it, or the last change is one from the value it had before. -/
theorem C20_restored_iff (pr : Prog P V M) (lim i : Nat) (hl : pr.leaf i = true) (pvs : List (P × V))
    (hu : pr.upds i = pvs.map fun pv => ⟨[pv.1], pv.2⟩) (st st' : St P V M) (r : Option M) (e : getU pr lim i st = some (r, st')) :
    st'.σ = st.σ ↔ ∀ p, Undone (st.σ p) (valuesOf p pvs) := by
  obtain ⟨ms, st1, st2, e1, h1, h2⟩ := getU_leaf_σ pr lim i hl st st' r e
  obtain ⟨ms', st1', e1', -, a1, a2⟩ := setups_mem pr pvs st
  rw [hu] at e1 h2
  rw [e1] at e1'
  simp only [Option.some.injEq, Prod.mk.injEq] at e1'
  obtain ⟨rfl, rfl⟩ := e1'
  rw [funext_iff]
  refine forall_congr' fun p => ?_
  rw [h2, a2, h1, a1]
  exact undone_iff _ _

/-- C20: two or more equal updates of one attribute, in a row or not, are undone; so the updates of a step need only agree on each attribute. -/
theorem C20_agreeing_partial (pr : Prog P V M) (lim i : Nat) (hl : pr.leaf i = true) (pvs : List (P × V))
    (hu : pr.upds i = pvs.map fun pv => ⟨[pv.1], pv.2⟩) (hv : ∀ a ∈ pvs, ∀ b ∈ pvs, a.1 = b.1 → a.2 = b.2)
    (st st' : St P V M) (r : Option M) (e : getU pr lim i st = some (r, st')) : st'.σ = st.σ := by
  rw [C20_restored_iff pr lim i hl pvs hu st st' r e]
  intro p
  rcases memOf_cases (valuesOf p pvs) (st.σ p) with h | ⟨l, a, w, m, hw, e⟩
  · exact Or.inl h
  · right
    have all : ∀ x ∈ valuesOf p pvs, ∀ y ∈ valuesOf p pvs, x = y := by
      intro x hx y hy
      simp only [valuesOf, List.mem_map, List.mem_filter, decide_eq_true_eq] at hx hy
      obtain ⟨a, ⟨ha, rfl⟩, rfl⟩ := hx
      obtain ⟨b, ⟨hb, hb'⟩, rfl⟩ := hy
      exact hv a ha b hb hb'.symm
    cases l with
    | nil =>
      simp only [List.nil_append, List.cons.injEq] at e
      obtain ⟨rfl, e⟩ := e
      exact ⟨[], w, m, hw, by rw [e]; rfl⟩
    | cons b l =>
      simp only [List.cons_append, List.cons.injEq] at e
      exact absurd (all w (by rw [e.2]; simp) a (by rw [e.2]; simp)) hw

/-- C20 fails (exactly how, for one update of several systems): afterwards every system of the update has the value which the first one had
before; so all are restored if and only if they had the same value. -/
theorem C20_group (pr : Prog P V M) (lim i : Nat) (hl : pr.leaf i = true) (p : P) (ps : List P) (v : V)
    (hu : pr.upds i = [⟨p :: ps, v⟩]) (st st' : St P V M) (r : Option M) (e : getU pr lim i st = some (r, st')) :
    (∀ q, st'.σ q = if q ∈ p :: ps then st.σ p else st.σ q) ∧ (st'.σ = st.σ ↔ ∀ q ∈ ps, st.σ q = st.σ p) := by
  obtain ⟨ms, st1, st2, e1, h1, h2⟩ := getU_leaf_σ pr lim i hl st st' r e
  rw [hu] at e1 h2
  simp only [setups, setup, Option.some.injEq, Prod.mk.injEq] at e1
  obtain ⟨rfl, rfl⟩ := e1
  have main : ∀ q, st'.σ q = if q ∈ p :: ps then st.σ p else st.σ q := by
    intro q
    rw [h2]
    simp only [setbacks, setback]
    by_cases hv : v = st.σ p
    · rw [if_neg (by simpa using hv), h1, runUpdate_σ, hv]
    · rw [if_pos hv, runUpdate_σ, h1, runUpdate_σ]
      by_cases hq : q ∈ p :: ps <;> simp only [hq, if_true, if_false]
  refine ⟨main, fun h q hq => ?_, fun h => funext fun q => ?_⟩
  · rw [← h, main q, main p, if_pos (by simp [hq]), if_pos (by simp), ← h, main p, if_pos (by simp)]
  · rw [main q]
    split
    · rename_i hq
      rcases List.mem_cons.1 hq with rfl | hq
      · rfl
      · exact (h q hq).symm
    · rfl

/-- An attribute with value 1 updated to 5 twice, to 5 and then 6, and to 5, 1 and 5. -/
example : Undone 1 [5, 5] ∧ ¬ Undone 1 [5, 6] ∧ Undone 1 [5, 1, 5] ∧ ¬ Undone 1 [5, 1] := by
  simp only [← undone_iff]
  decide

/-- On an evolution: 5, 1 and 5 are undone, 5 and 1 leave 5. -/
example : ((getU (demo allMarks (fun i => if i = 0 then [⟨[0], 5⟩, ⟨[0], 1⟩, ⟨[0], 5⟩] else []) nofix) 9 0
    (init (fun p => p + 1) (fun _ => 1) (fun _ => []))).map fun x => x.2.σ 0) = some 1 ∧
    ((getU (demo allMarks (fun i => if i = 0 then [⟨[0], 5⟩, ⟨[0], 1⟩] else []) nofix) 9 0
    (init (fun p => p + 1) (fun _ => 1) (fun _ => []))).map fun x => x.2.σ 0) = some 5 := by
  constructor <;> decide +kernel

end Verif.Cache
