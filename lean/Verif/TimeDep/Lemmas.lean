import Verif.TimeDep.Model

/-!
# If the functions have nothing to change, asking with and without them is the same
-/
namespace Verif.TimeDep
open Verif.Sweep Verif.Cache

variable {P V M S : Type} [DecidableEq P] [DecidableEq V]

/-- Every function that may be called when `i` is asked assigns the value that is there already. -/
def Quiet (cfg : Cfg P V M S) (ind : Nat) (steps : Nat → List Ref) (i : Nat) (σ : P → V) : Prop :=
  ∀ j, Touch cfg.pr steps i j → ∀ f ∈ cfg.fns j, f.2 σ (timeOf cfg ind j σ) = σ f.1

theorem callFns_quiet (pr : Prog P V M) (t : V) : ∀ (fs : List (TimeFn P V)) (st : St P V M),
    (∀ f ∈ fs, f.2 st.σ t = st.σ f.1) → callFns pr t fs st = st
  | [], _, _ => rfl
  | f :: fs, st, h => by
    have : assign pr f.1 (f.2 st.σ t) st = st := by
      unfold assign
      rw [if_neg (by simp [h f (by simp)])]
    rw [callFns, this]
    exact callFns_quiet pr t fs st fun g hg => h g (by simp [hg])

theorem hook_quiet {cfg : Cfg P V M S} {ind : Nat} {steps : Nat → List Ref} {i : Nat} {st : St P V M}
    (q : Quiet cfg ind steps i st.σ) : hook cfg ind i st = st :=
  callFns_quiet _ _ _ _ fun f hf => q i (.refl i) f hf

theorem Quiet.step {cfg : Cfg P V M S} {ind : Nat} {steps : Nat → List Ref} {i : Nat} {σ : P → V} (q : Quiet cfg ind steps i σ)
    (hl : cfg.pr.leaf i = false) {r : Ref} (hr : r ∈ steps i) : Quiet cfg ind steps r.id σ :=
  fun j hj => q j (.head hl hr hj)

section
variable {cfg : Cfg P V M S} {ind : Nat} {steps : Nat → List Ref} {val : Nat → M} (T : Tame cfg.pr steps) {lim : Nat}
  {g g' : Nat → St P V M → Option (Option M × St P V M)}
  (hg : ∀ i st r st', st.steps = steps → FromScratch cfg.pr st val → Inv val st → g i st = some (r, st') →
    Post cfg.pr steps val i st r st')
  (hgg : ∀ i st, st.steps = steps → FromScratch cfg.pr st val → Inv val st → Quiet cfg ind steps i st.σ → g' i st = g i st)
include T hg hgg

omit T hg in
theorem unitaryOf_eq (i : Nat) (st : St P V M) (hs : st.steps = steps) (hf : FromScratch cfg.pr st val) (hi : Inv val st)
    (q : Quiet cfg ind steps i st.σ) : unitaryOfT cfg ind lim g' i st = unitaryOf cfg.pr lim g i st := by
  unfold unitaryOfT
  rw [hook_quiet q]
  unfold unitaryOf
  cases e1 : eff cfg.pr lim i st with
  | none => rfl
  | some x =>
    obtain ⟨b, st1⟩ := x
    have g1 := (eff_spec cfg.pr steps lim _ _ _ _ hs e1).1
    dsimp only
    rw [hgg i st1 (g1.same.steps.trans hs) (hf.same g1.same) (g1.inv hi) (by rw [g1.same.σ]; exact q)]

omit T hg in
theorem getRef_eq (r : Ref) (st : St P V M) (hs : st.steps = steps) (hf : FromScratch cfg.pr st val) (hi : Inv val st)
    (q : Quiet cfg ind steps r.id st.σ) : getRefT cfg ind lim g' r st = getRef cfg.pr lim g r st := by
  cases r with
  | orig j => exact hgg j st hs hf hi q
  | copy j hc =>
    unfold getRefT getRef
    dsimp only
    rw [unitaryOf_eq hgg j st hs hf hi q]
    rfl

theorem createLoop_eq (i : Nat) (hl : cfg.pr.leaf i = false) : ∀ (rs : List Ref), (∀ r ∈ rs, r ∈ steps i) → ∀ (acc : M) (st : St P V M),
    st.steps = steps → FromScratch cfg.pr st val → Inv val st → Quiet cfg ind steps i st.σ →
    createLoopT cfg ind lim g' rs acc st = createLoop cfg.pr lim g rs acc st := by
  intro rs
  induction rs with
  | nil => intro _ acc st _ _ _ _; rfl
  | cons r rs ih =>
    intro hmem acc st hs hf hi q
    unfold createLoopT createLoop
    cases e1 : puGet cfg.pr lim rs st with
    | none => rfl
    | some x =>
      obtain ⟨vals, st1⟩ := x
      have g1 := (puGet_spec cfg.pr steps lim _ _ _ _ hs e1).1
      have fal := puGet_false (val := val) cfg.pr steps lim _ _ _ _ hs hi e1
      have hs1 := g1.same.steps.trans hs
      have q1 : Quiet cfg ind steps i st1.σ := by rw [g1.same.σ]; exact q
      dsimp only
      rw [getRef_eq hgg r st1 hs1 (hf.same g1.same) (g1.inv hi) (q1.step hl (hmem r (by simp)))]
      cases e2 : getRef cfg.pr lim g r st1 with
      | none => rfl
      | some y =>
        obtain ⟨u, st2⟩ := y
        cases u with
        | none => rfl
        | some u =>
          dsimp only
          have p := getRef_spec T hg i r (hmem r (by simp)) st1 (some u) st2 hs1 (hf.same g1.same) (g1.inv hi) e2
          obtain ⟨p1, p2, -⟩ := puSet_spec (val := val) rs vals st2 p.inv fun k j hk hb => p.keep j (fal k j hk hb)
          have hsame : Same st (puSet rs vals st2) := (g1.same.trans p.same).trans p2
          exact ih (fun r hr => hmem r (by simp [hr])) _ _ (hsame.steps.trans hs) (hf.same hsame) p1 (by rw [hsame.σ]; exact q)

theorem defGet_eq (i : Nat) (st : St P V M) (hs : st.steps = steps) (h : cfg.pr.leaf i = true ∨ (FromScratch cfg.pr st val ∧ Inv val st ∧
    Quiet cfg ind steps i st.σ)) : defGetT cfg ind lim g' i st = defGet cfg.pr lim g i st := by
  unfold defGetT defGet
  cases e1 : eff cfg.pr lim i st with
  | none => rfl
  | some x =>
    obtain ⟨b, st1⟩ := x
    dsimp only
    have : createT cfg ind lim g' i st1 = create cfg.pr lim g i st1 := by
      unfold createT create
      by_cases hl : cfg.pr.leaf i = true
      · rw [if_pos hl, if_pos hl]
      · rw [if_neg hl, if_neg hl]
        rcases h with h | ⟨hf, hi, q⟩
        · exact absurd h hl
        have g1 := (eff_spec cfg.pr steps lim _ _ _ _ hs e1).1
        have hs1 := g1.same.steps.trans hs
        rw [hs1]
        exact createLoop_eq T hg hgg i (not_leaf hl) _ (fun _ h => h) _ _ hs1 (hf.same g1.same) (g1.inv hi)
          (by rw [g1.same.σ]; exact q)
    rw [this]
    rfl

end

/-- `getUnitary` with nothing to change. -/
theorem getU_eq {cfg : Cfg P V M S} {ind : Nat} {steps : Nat → List Ref} {val : Nat → M} (T : Tame cfg.pr steps) :
    ∀ (lim i : Nat) (st : St P V M), st.steps = steps → FromScratch cfg.pr st val → Inv val st → Quiet cfg ind steps i st.σ →
      getUT cfg ind lim i st = getU cfg.pr lim i st := by
  intro lim
  induction lim with
  | zero => intro i st _ _ _ _; rfl
  | succ lim ih =>
    intro i st hs hf hi q
    unfold getUT getU
    rw [hook_quiet q]
    have hg := fun i st r st' a b c d => getU_spec (val := val) T lim i st r st' a b c d
    by_cases hl : cfg.pr.leaf i = true
    · obtain ⟨pvs, hpv, hn⟩ := T.updOne i
      obtain ⟨st1, e1, s1, -, -⟩ := setups_one cfg.pr pvs st hn
      rw [hpv, e1]
      dsimp only
      rw [defGet_eq T hg ih i st1 (s1.steps.trans hs) (.inl hl)]
      rfl
    · rw [T.updLeaf i (not_leaf hl)]
      simp only [setups]
      rw [defGet_eq T hg ih i st hs (.inr ⟨hf, hi, q⟩)]
      rfl

/-- `unitary()` is the call of the functions followed by `unitary()` without any, if after the first call there is nothing to change. -/
theorem unitaryT_eq {cfg : Cfg P V M S} {ind : Nat} {steps : Nat → List Ref} {val : Nat → M} (T : Tame cfg.pr steps) (i : Nat)
    (st : St P V M) (hs : (hook cfg ind i st).steps = steps) (hf : FromScratch cfg.pr (hook cfg ind i st) val)
    (hi : Inv val (hook cfg ind i st)) (q : Quiet cfg ind steps i (hook cfg ind i st).σ) :
    unitaryT cfg ind i st = unitary cfg.pr cfg.lim i (hook cfg ind i st) := by
  have := unitaryOf_eq (lim := cfg.lim) (g := getU cfg.pr cfg.lim) (fun i st a b c d => getU_eq T cfg.lim i st a b c d) i
    (hook cfg ind i st) hs hf hi q
  unfold unitaryOfT at this
  rw [hook_quiet q] at this
  exact this

end Verif.TimeDep
