import Verif.Cache.CountProps
/-!
# What every call leaves alone

Whatever the updates, copies and fixed protocols are: a cached conjugate is never replaced, the matrix of a fixed protocol is
never replaced, and (for updates of one system each) parameters are restored.
-/
namespace Verif.Cache
variable {P V M : Type} [DecidableEq P] [DecidableEq V] {pr : Prog P V M} {steps : Nat → List Ref}

/-- Some protocol has an `hc` copy of `j` as a step. -/
def HcStep (steps : Nat → List Ref) (j : Nat) : Prop := ∃ i, Ref.copy j true ∈ steps i

/-- What every call leaves alone. -/
structure Keep (pr : Prog P V M) (all : Nat → List Ref) (st st' : St P V M) : Prop where
  steps : st'.steps = st.steps
  ratio : st'.ratio = st.ratio
  hcm : ∀ j, st'.hcm j = st.hcm j ∨ (st.hcm j = none ∧ HcStep all j)
  mat : ∀ j m, pr.fixed j = true → st.mat j = some m → st'.mat j = some m

theorem Keep.refl (st : St P V M) : Keep pr steps st st := ⟨rfl, rfl, fun _ => Or.inl rfl, fun _ _ _ h => h⟩
theorem Keep.trans {a b c : St P V M} (x : Keep pr steps a b) (y : Keep pr steps b c) : Keep pr steps a c :=
  ⟨y.steps.trans x.steps, y.ratio.trans x.ratio, fun j => by
    rcases y.hcm j with h | ⟨h, hh⟩
    · rcases x.hcm j with h' | h'
      · exact Or.inl (h.trans h')
      · exact Or.inr h'
    · rcases x.hcm j with h' | h'
      · exact Or.inr ⟨h' ▸ h, hh⟩
      · exact Or.inr h', fun j m hf h => y.mat j m hf (x.mat j m hf h)⟩

theorem Keep.of_eq {st st' : St P V M} (h1 : st'.steps = st.steps) (h2 : st'.ratio = st.ratio) (h3 : st'.hcm = st.hcm)
    (h4 : st'.mat = st.mat) : Keep pr steps st st' :=
  ⟨h1, h2, fun j => Or.inl (by rw [h3]), fun j m _ h => by rw [h4]; exact h⟩

theorem Grow.keep {st st' : St P V M} (g : Grow st st') : Keep pr steps st st' := .of_eq g.same.steps g.same.ratio g.hcm g.mat
theorem Shift.keep {st st' : St P V M} (g : Shift st st') : Keep pr steps st st' := .of_eq g.steps g.ratio g.hcm g.mat

theorem runUpdate_shift (ps : List P) (v : V) : ∀ st : St P V M, Shift st (runUpdate pr ps v st) := by
  unfold runUpdate
  induction ps with
  | nil => intro st; exact .refl _
  | cons p ps ih => intro st; exact (assign_shift pr p v st).trans (ih _)

theorem setups_shift : ∀ (us : List (Upd P V)) (st : St P V M) (ms : List V) (st' : St P V M),
    setups pr us st = some (ms, st') → Shift st st' := by
  intro us
  induction us with
  | nil =>
    intro st ms st' e
    simp only [setups, Option.some.injEq, Prod.mk.injEq] at e
    rw [← e.2]; exact .refl _
  | cons u us ih =>
    intro st ms st' e
    unfold setups at e
    split at e
    · simp at e
    rename_i m st1 e1
    split at e
    · simp at e
    rename_i ms' st2 e2
    simp only [Option.some.injEq, Prod.mk.injEq] at e
    obtain ⟨-, rfl⟩ := e
    refine Shift.trans ?_ (ih _ _ _ e2)
    unfold setup at e1
    split at e1
    · simp at e1
    · simp only [Option.some.injEq, Prod.mk.injEq] at e1
      rw [← e1.2]; exact runUpdate_shift _ _ _

theorem setback_shift (u : Upd P V) (m : V) (st : St P V M) : Shift st (setback pr u m st) := by
  unfold setback
  split
  · exact runUpdate_shift _ _ _
  · exact .refl _

theorem setbacks_shift : ∀ (us : List (Upd P V)) (ms : List V) (st : St P V M), Shift st (setbacks pr us ms st) := by
  intro us
  induction us with
  | nil => intro ms st; cases ms <;> exact .refl _
  | cons u us ih =>
    intro ms st
    cases ms with
    | nil => exact .refl _
    | cons m ms => exact (setback_shift u m st).trans (ih ms _)

theorem setMat_keep (st : St P V M) (i : Nat) (m : Option M) (h : pr.fixed i = true → ∀ x, st.mat i = some x → m = some x) :
    Keep pr steps st (setMat st i m) := by
  refine ⟨rfl, rfl, fun _ => Or.inl rfl, fun j x hf hx => ?_⟩
  unfold setMat
  by_cases hj : j = i
  · subst hj; simp [h hf x hx]
  · simp [hj, hx]

section
variable {lim : Nat} {g : Nat → St P V M → Option (Option M × St P V M)}
  (hg : ∀ i st r st', st.steps = steps → g i st = some (r, st') → r = st'.mat i ∧ Keep pr steps st st')
include hg

theorem unitaryOf_keep (i : Nat) (st : St P V M) (r : Option M) (st' : St P V M) (hs : st.steps = steps)
    (e : unitaryOf pr lim g i st = some (r, st')) : r = st'.mat i ∧ Keep pr steps st st' := by
  unfold unitaryOf at e
  split at e
  · simp at e
  rename_i b st1 e1
  have g1 := (eff_spec pr steps _ _ _ _ _ hs e1).1
  have hs1 := g1.same.steps.trans hs
  have call : ∀ m st2, g i st1 = some (m, st2) → Keep pr steps st (setMat st2 i m) := by
    intro m st2 e2
    obtain ⟨hm, q⟩ := hg i st1 m st2 hs1 e2
    exact (g1.keep.trans q).trans (setMat_keep _ _ _ (fun _ x hx => by rw [hm, hx]))
  split at e
  · split at e
    · simp only [Option.some.injEq, Prod.mk.injEq] at e
      obtain ⟨rfl, rfl⟩ := e
      exact ⟨rfl, g1.keep⟩
    · split at e
      · simp at e
      rename_i m st2 e2
      simp only [Option.some.injEq, Prod.mk.injEq] at e
      obtain ⟨rfl, rfl⟩ := e
      exact ⟨rfl, call m st2 e2⟩
  · split at e
    · rename_i m hm
      simp only [Option.some.injEq, Prod.mk.injEq] at e
      obtain ⟨rfl, rfl⟩ := e
      exact ⟨hm.symm, g1.keep⟩
    · split at e
      · simp at e
      rename_i m st2 e2
      simp only [Option.some.injEq, Prod.mk.injEq] at e
      obtain ⟨rfl, rfl⟩ := e
      exact ⟨rfl, call m st2 e2⟩

theorem getRef_keep (i : Nat) (r : Ref) (hr : r ∈ steps i) (st : St P V M) (m : Option M) (st' : St P V M) (hs : st.steps = steps)
    (e : getRef pr lim g r st = some (m, st')) : Keep pr steps st st' := by
  cases r with
  | orig j => exact (hg j st m st' hs e).2
  | copy j hc =>
    unfold getRef at e
    dsimp only at e
    split at e
    · simp at e
    rename_i m1 st1 e1
    have q := (unitaryOf_keep hg j st _ _ hs e1).2
    cases hc with
    | false =>
      simp only [Bool.false_eq_true, if_false, Option.some.injEq, Prod.mk.injEq] at e
      obtain ⟨-, rfl⟩ := e
      exact q
    | true =>
      simp only [if_true] at e
      split at e
      · simp at e
      rename_i h st2 e2
      simp only [Option.some.injEq, Prod.mk.injEq] at e
      obtain ⟨-, rfl⟩ := e
      refine q.trans ?_
      unfold hcOf at e2
      split at e2
      · simp only [Option.some.injEq, Prod.mk.injEq] at e2
        rw [← e2.2]; exact .refl _
      · rename_i hn
        split at e2
        · simp at e2
        · simp only [Option.some.injEq, Prod.mk.injEq] at e2
          rw [← e2.2]
          refine ⟨rfl, rfl, fun k => ?_, fun _ _ _ h => h⟩
          by_cases hk : k = j
          · subst hk; exact Or.inr ⟨hn, i, hr⟩
          · left; simp [hk]

theorem createLoop_keep (i : Nat) : ∀ (rs : List Ref), (∀ r ∈ rs, r ∈ steps i) → ∀ (acc : M) (st : St P V M) (u : M)
    (st' : St P V M), st.steps = steps → createLoop pr lim g rs acc st = some (u, st') → Keep pr steps st st' := by
  intro rs
  induction rs with
  | nil =>
    intro _ acc st u st' _ e
    simp only [createLoop, Option.some.injEq, Prod.mk.injEq] at e
    rw [← e.2]; exact .refl _
  | cons r rs ih =>
    intro hm acc st u st' hs e
    unfold createLoop at e
    split at e
    · simp at e
    rename_i vals st1 e1
    have g1 := (puGet_spec pr steps lim _ _ _ _ hs e1).1
    split at e
    case h_2 => simp at e
    rename_i u1 st2 e2
    have q := getRef_keep hg i r (hm r (by simp)) st1 _ st2 (g1.same.steps.trans hs) e2
    obtain ⟨s1, s2, s3, s4, s5, -⟩ := puSet_frame rs vals st2
    have s6 : (puSet rs vals st2).hcm = st2.hcm := by
      have : ∀ (rs : List Ref) (bs : List Bool) (st : St P V M), (puSet rs bs st).hcm = st.hcm := by
        intro rs
        induction rs with
        | nil => intro bs st; cases bs <;> rfl
        | cons r rs ih =>
          intro bs st
          cases bs with
          | nil => cases r <;> rfl
          | cons b bs => cases r with
            | orig j => exact ih bs (setFlag st j b)
            | copy j hc => exact ih bs st
      exact this _ _ _
    have k : Keep pr steps st (puSet rs vals st2) := (g1.keep.trans q).trans (.of_eq s2 s3 s6 s4)
    exact k.trans (ih (fun r h => hm r (by simp [h])) _ _ _ _ (k.steps.trans hs) e)

end

theorem getU_keep : ∀ (lim i : Nat) (st : St P V M) (r : Option M) (st' : St P V M), st.steps = steps →
    getU pr lim i st = some (r, st') → r = st'.mat i ∧ Keep pr steps st st' := by
  intro lim
  induction lim with
  | zero => intro i st r st' _ e; simp [getU] at e
  | succ lim ih =>
    intro i st r st' hs e
    unfold getU at e
    split at e
    · simp at e
    rename_i ms st1 e1
    have k1 : Keep pr steps st st1 := (setups_shift _ _ _ _ e1).keep
    split at e
    · simp at e
    rename_i m st2 e2
    split at e
    · simp at e
    rename_i st3 e3
    simp only [Option.some.injEq, Prod.mk.injEq] at e
    obtain ⟨rfl, rfl⟩ := e
    refine ⟨rfl, ?_⟩
    have hs1 := k1.steps.trans hs
    have k2 : m = st2.mat i ∧ Keep pr steps st1 st2 := by
      unfold defGet at e2
      split at e2
      · simp at e2
      rename_i b st4 e4
      have g1 := (eff_spec pr steps _ _ _ _ _ hs1 e4).1
      have hs4 := g1.same.steps.trans hs1
      split at e2
      · rename_i hcr
        split at e2
        · simp at e2
        rename_i u st5 e5
        simp only [Option.some.injEq, Prod.mk.injEq] at e2
        obtain ⟨rfl, rfl⟩ := e2
        refine ⟨rfl, ?_⟩
        have k5 : Keep pr steps st4 st5 := by
          unfold create at e5
          split at e5
          · simp only [Option.some.injEq, Prod.mk.injEq] at e5
            rw [← e5.2]; exact .of_eq rfl rfl rfl rfl
          · exact createLoop_keep (fun i st r st' a b => ih i st r st' a b) i _ (fun r h => hs4 ▸ h) _ _ _ _ hs4 e5
        -- a fixed protocol with a matrix is not created again
        refine ⟨k5.steps.trans (g1.keep (pr := pr) (steps := steps)).steps, k5.ratio.trans (g1.keep (pr := pr) (steps := steps)).ratio,
          (g1.keep.trans k5).hcm, fun j x hf hx => ?_⟩
        by_cases hj : j = i
        · subst hj
          rw [hf] at hcr
          have : st4.mat j = some x := by rw [g1.mat]; exact hx
          simp [this] at hcr
        · simp only [setMat, if_neg hj]
          exact (g1.keep.trans k5).mat j x hf hx
      · simp only [Option.some.injEq, Prod.mk.injEq] at e2
        obtain ⟨rfl, rfl⟩ := e2
        exact ⟨rfl, g1.keep⟩
    obtain ⟨hm, k2⟩ := k2
    have k3 : Keep pr steps st2 (setbacks pr (pr.upds i) ms (setMat st2 i m)) :=
      (setMat_keep _ _ _ (fun _ x hx => by rw [hm, hx])).trans (setbacks_shift _ _ _).keep
    have k := (k1.trans k2).trans k3
    obtain ⟨c1, c2, c3, -, -, -⟩ := clear_spec pr steps lim i _ _ (k.steps.trans hs) e3
    exact k.trans (.of_eq c1.steps c1.ratio c3 c2)

theorem prepare_keep : ∀ (lim i : Nat) (st st' : St P V M), st.steps = steps →
    prepare pr lim i st = some st' → Keep pr steps st st' := by
  intro lim
  induction lim with
  | zero => intro i st st' _ e; simp [prepare] at e
  | succ lim ih =>
    intro i st st' hs e
    unfold prepare at e
    dsimp only at e
    split at e
    · simp at e
    rename_i st1 e1
    have k1 : Keep pr steps st st1 := by
      split at e1
      · simp only [Option.map_eq_some_iff] at e1
        obtain ⟨⟨r, st2⟩, e2, rfl⟩ := e1
        exact (getU_keep lim i st r st2 hs e2).2
      · simp only [Option.some.injEq] at e1
        subst e1
        exact .refl _
    split at e
    · simp only [Option.some.injEq] at e
      subst e
      exact k1
    · refine k1.trans ?_
      have : ∀ (l : List Nat) (st st' : St P V M), st.steps = steps →
          l.foldl (fun (acc : Option (St P V M)) j => acc.bind fun st => prepare pr lim j st) (some st) = some st' →
          Keep pr steps st st' := by
        intro l
        induction l with
        | nil =>
          intro st st' _ e
          simp only [List.foldl_nil, Option.some.injEq] at e
          subst e; exact .refl _
        | cons j l ihl =>
          intro st st' hs e
          rw [List.foldl_cons, Option.bind_some] at e
          cases e1 : prepare pr lim j st with
          | none =>
            rw [e1] at e
            have : ∀ l : List Nat, l.foldl (fun (acc : Option (St P V M)) j => acc.bind fun st => prepare pr lim j st) none = none := by
              intro l; induction l with
              | nil => rfl
              | cons _ _ ih => simpa using ih
            rw [this] at e; simp at e
          | some st1 =>
            rw [e1] at e
            have k := ih j st st1 hs e1
            exact k.trans (ihl st1 st' (k.steps.trans hs) e)
      exact this _ _ _ (k1.steps.trans hs) e

/-! ### Restored parameters -/

/-- Every update has one system, and the updates of a protocol or step change different attributes. -/
def SingleUpdates (pr : Prog P V M) : Prop :=
  ∀ i, ∃ pvs : List (P × V), (pr.upds i) = pvs.map (fun pv => ⟨[pv.1], pv.2⟩) ∧ (pvs.map Prod.fst).Nodup

section
variable {lim : Nat} {g : Nat → St P V M → Option (Option M × St P V M)}
  (hg : ∀ i st r st', st.steps = steps → g i st = some (r, st') → st'.σ = st.σ ∧ st'.steps = st.steps)
include hg

theorem unitaryOf_σ (i : Nat) (st : St P V M) (r : Option M) (st' : St P V M) (hs : st.steps = steps)
    (e : unitaryOf pr lim g i st = some (r, st')) : st'.σ = st.σ ∧ st'.steps = st.steps := by
  unfold unitaryOf at e
  split at e
  · simp at e
  rename_i b st1 e1
  have g1 := (eff_spec pr steps _ _ _ _ _ hs e1).1
  have hs1 := g1.same.steps.trans hs
  have call : ∀ m st2, g i st1 = some (m, st2) → (setMat st2 i m).σ = st.σ ∧ (setMat st2 i m).steps = st.steps := by
    intro m st2 e2
    obtain ⟨a, b⟩ := hg i st1 m st2 hs1 e2
    exact ⟨a.trans g1.same.σ, b.trans g1.same.steps⟩
  split at e
  · split at e
    · simp only [Option.some.injEq, Prod.mk.injEq] at e
      rw [← e.2]; exact ⟨g1.same.σ, g1.same.steps⟩
    · split at e
      · simp at e
      rename_i m st2 e2
      simp only [Option.some.injEq, Prod.mk.injEq] at e
      rw [← e.2]; exact call m st2 e2
  · split at e
    · simp only [Option.some.injEq, Prod.mk.injEq] at e
      rw [← e.2]; exact ⟨g1.same.σ, g1.same.steps⟩
    · split at e
      · simp at e
      rename_i m st2 e2
      simp only [Option.some.injEq, Prod.mk.injEq] at e
      rw [← e.2]; exact call m st2 e2

theorem getRef_σ (r : Ref) (st : St P V M) (m : Option M) (st' : St P V M) (hs : st.steps = steps)
    (e : getRef pr lim g r st = some (m, st')) : st'.σ = st.σ ∧ st'.steps = st.steps := by
  cases r with
  | orig j => exact hg j st m st' hs e
  | copy j hc =>
    unfold getRef at e
    dsimp only at e
    split at e
    · simp at e
    rename_i m1 st1 e1
    obtain ⟨a, b⟩ := unitaryOf_σ hg j st _ _ hs e1
    split at e
    · split at e
      · simp at e
      rename_i h st2 e2
      simp only [Option.some.injEq, Prod.mk.injEq] at e
      obtain ⟨-, rfl⟩ := e
      unfold hcOf at e2
      split at e2
      · simp only [Option.some.injEq, Prod.mk.injEq] at e2
        rw [← e2.2]; exact ⟨a, b⟩
      · split at e2
        · simp at e2
        · simp only [Option.some.injEq, Prod.mk.injEq] at e2
          rw [← e2.2]; exact ⟨a, b⟩
    · simp only [Option.some.injEq, Prod.mk.injEq] at e
      rw [← e.2]; exact ⟨a, b⟩

theorem createLoop_σ : ∀ (rs : List Ref) (acc : M) (st : St P V M) (u : M) (st' : St P V M), st.steps = steps →
    createLoop pr lim g rs acc st = some (u, st') → st'.σ = st.σ ∧ st'.steps = st.steps := by
  intro rs
  induction rs with
  | nil =>
    intro acc st u st' _ e
    simp only [createLoop, Option.some.injEq, Prod.mk.injEq] at e
    rw [← e.2]; exact ⟨rfl, rfl⟩
  | cons r rs ih =>
    intro acc st u st' hs e
    unfold createLoop at e
    split at e
    · simp at e
    rename_i vals st1 e1
    have g1 := (puGet_spec pr steps lim _ _ _ _ hs e1).1
    split at e
    case h_2 => simp at e
    rename_i u1 st2 e2
    obtain ⟨a, b⟩ := getRef_σ hg r st1 _ st2 (g1.same.steps.trans hs) e2
    obtain ⟨s1, s2, -, -, -, -⟩ := puSet_frame rs vals st2
    have h1 : (puSet rs vals st2).σ = st.σ := s1.trans (a.trans g1.same.σ)
    have h2 : (puSet rs vals st2).steps = st.steps := s2.trans (b.trans g1.same.steps)
    obtain ⟨c, d⟩ := ih _ _ _ _ (h2.trans hs) e
    exact ⟨c.trans h1, d.trans h2⟩

end

theorem getU_σ (hu : SingleUpdates pr) : ∀ (lim i : Nat) (st : St P V M) (r : Option M) (st' : St P V M), st.steps = steps →
    getU pr lim i st = some (r, st') → st'.σ = st.σ ∧ st'.steps = st.steps := by
  intro lim
  induction lim with
  | zero => intro i st r st' _ e; simp [getU] at e
  | succ lim ih =>
    intro i st r st' hs e
    obtain ⟨pvs, hpv, hn⟩ := hu i
    obtain ⟨st1, e1, s1, hσ, hq⟩ := setups_one pr pvs st hn
    unfold getU at e
    rw [hpv, e1] at e
    dsimp only at e
    split at e
    · simp at e
    rename_i m st2 e2
    split at e
    · simp at e
    rename_i st3 e3
    simp only [Option.some.injEq, Prod.mk.injEq] at e
    obtain ⟨-, rfl⟩ := e
    have hs1 := s1.steps.trans hs
    have h2 : st2.σ = st1.σ ∧ st2.steps = st1.steps := by
      unfold defGet at e2
      split at e2
      · simp at e2
      rename_i b st4 e4
      have g1 := (eff_spec pr steps _ _ _ _ _ hs1 e4).1
      have hs4 := g1.same.steps.trans hs1
      split at e2
      · split at e2
        · simp at e2
        rename_i u st5 e5
        simp only [Option.some.injEq, Prod.mk.injEq] at e2
        obtain ⟨-, rfl⟩ := e2
        show st5.σ = _ ∧ st5.steps = _
        unfold create at e5
        split at e5
        · simp only [Option.some.injEq, Prod.mk.injEq] at e5
          rw [← e5.2]; exact ⟨g1.same.σ, g1.same.steps⟩
        · obtain ⟨a, b⟩ := createLoop_σ (fun i st r st' a b => ih i st r st' a b) _ _ _ _ _ hs4 e5
          exact ⟨a.trans g1.same.σ, b.trans g1.same.steps⟩
      · simp only [Option.some.injEq, Prod.mk.injEq] at e2
        rw [← e2.2]; exact ⟨g1.same.σ, g1.same.steps⟩
    obtain ⟨d1, d2⟩ := h2
    have hval : ∀ pv ∈ pvs, (setMat st2 i m).σ pv.1 = pv.2 := by
      intro pv hk
      show st2.σ pv.1 = pv.2
      rw [d1, hσ]
      exact updated_mem pvs st.σ hn pv hk
    obtain ⟨b1, b2, b3⟩ := setbacks_one pr pvs (pvs.map fun pv => st.σ pv.1) (setMat st2 i m) hn (by simp) hval
    obtain ⟨c1, -, -, -, -, -⟩ := clear_spec pr steps lim i _ _ (b1.steps.trans (d2.trans hs1)) e3
    refine ⟨c1.σ.trans ?_, c1.steps.trans (b1.steps.trans (d2.trans s1.steps))⟩
    funext q
    by_cases hqm : q ∈ pvs.map Prod.fst
    · obtain ⟨pv, hpv', rfl⟩ := List.mem_map.mp hqm
      obtain ⟨k, hk⟩ := List.mem_iff_getElem?.mp hpv'
      exact b3 k pv (st.σ pv.1) hk (by rw [List.getElem?_map, hk]; rfl)
    · rw [b2 q hqm]
      show st2.σ q = st.σ q
      rw [d1, hq q hqm]

end Verif.Cache
