import Verif.Whole.Model

/-!
# C72: every sweep point is computed as if it were the only one
-/
namespace Verif.Whole
open Verif.Sweep Verif.Cache

variable {P V M S : Type} [DecidableEq P] [DecidableEq V]

/-! ### Specification -/

/-- The parameters at a sweep point: each sweep gives its value to its targets, the last sweep wins. -/
def overwrite : List (List P) → List V → (P → V) → (P → V)
  | ts :: r, v :: vs, σ => overwrite r vs (fun q => if q ∈ ts then v else σ q)
  | _, _, σ => σ

/-- `x` is what a protocol does with its initial state when its unitary is `u` at every step. -/
def Trajectory (act : M → S → S) (u : M) (s : S) (n : Nat) (x : List S) : Prop :=
  x.length = n + 1 ∧ x[0]? = some s ∧ ∀ k < n, ∀ a, x[k]? = some a → x[k + 1]? = some (act u a)

/-- The objects of a simulation before the run: made with some parameters, then used in any way that assigns parameters and asks for
unitaries. -/
def Reachable (pr : Prog P V M) (lim : Nat) (ratio : Nat → V) (steps : Nat → List Ref) (st : St P V M) : Prop :=
  ∃ (σ : P → V) (l : List (Cmd P V)), (∀ c ∈ l, c.Plain) ∧ Cache.run pr lim l (init σ ratio steps) = some st

/-- The restrictions: those of C14, enough recursion depth, and one list of targets per sweep. -/
structure Nice (cfg : Cfg P V M S) (steps : Nat → List Ref) (rank : Nat → Nat) : Prop where
  tame : Tame cfg.pr steps
  covers : Covers cfg.pr steps rank
  deep : ∀ i ∈ cfg.protos, rank i + 1 < cfg.lim
  nodup : cfg.protos.Nodup
  targets : cfg.targets.length = cfg.sweeps.length

/-! ### One call -/

/-- The caches are right. -/
def Good (pr : Prog P V M) (steps : Nat → List Ref) (st : St P V M) : Prop :=
  st.steps = steps ∧ ∀ val, FromScratch pr st val → Inv val st

theorem reachable_good {cfg : Cfg P V M S} {steps : Nat → List Ref} {rank : Nat → Nat} (h : Nice cfg steps rank) {ratio : Nat → V}
    {st : St P V M} (hr : Reachable cfg.pr cfg.lim ratio steps st) : Good cfg.pr steps st ∧ st.ratio = ratio := by
  obtain ⟨σ, l, hl, e⟩ := hr
  obtain ⟨h1, h2, h3⟩ := run_inv h.tame h.covers l hl _ _ rfl (fun val _ => init_inv cfg.pr σ ratio steps val) e
  exact ⟨⟨h1, h3⟩, h2⟩

theorem fromScratch_congr {pr : Prog P V M} {st st' : St P V M} {val : Nat → M} (h : FromScratch pr st val) (e1 : st'.σ = st.σ)
    (e2 : st'.ratio = st.ratio) (e3 : st'.steps = st.steps) : FromScratch pr st' val :=
  ⟨fun i hl => by rw [h.leaf i hl, e1, e2], fun i hl => by rw [h.comp i hl, e3]⟩

section
variable {cfg : Cfg P V M S} {steps : Nat → List Ref} {rank : Nat → Nat} (h : Nice cfg steps rank)
include h

theorem unitary_good {st : St P V M} (hg : Good cfg.pr steps st) {val : Nat → M} (hv : FromScratch cfg.pr st val) {i : Nat}
    (hi : rank i + 1 < cfg.lim) : ∃ st', unitary cfg.pr cfg.lim i st = some (some (val i), st') ∧ Good cfg.pr steps st' ∧
      st'.σ = st.σ ∧ st'.ratio = st.ratio := by
  obtain ⟨hs, hinv⟩ := hg
  have T := h.tame
  have hg := fun i st r st' a b c d => getU_spec (val := val) T cfg.lim i st r st' a b c d
  obtain ⟨⟨b, st1⟩, e1⟩ := eff_total h.covers.rank cfg.lim i st hs (by omega)
  have g1 := (eff_spec cfg.pr steps cfg.lim _ _ _ _ hs e1).1
  obtain ⟨⟨m, st2⟩, e2⟩ := getU_total h.covers.rank T cfg.lim i st1 (g1.same.steps.trans hs) (hv.same g1.same) (g1.inv (hinv val hv)) hi
  obtain ⟨⟨r, st'⟩, e3⟩ : ∃ x, unitary cfg.pr cfg.lim i st = some x := by
    unfold unitary unitaryOf
    rw [e1]
    dsimp only
    rw [e2, T.notFixed i]
    cases b with
    | true => exact ⟨_, rfl⟩
    | false => cases hm : st1.mat i <;> exact ⟨_, rfl⟩
  have p := unitaryOf_spec T hg i st r st' hs hv (hinv val hv) e3
  have hr := p.ret
  subst hr
  refine ⟨st', e3, ?_, p.same.σ, p.same.ratio⟩
  have := exec_inv (lim := cfg.lim) T h.covers (.unitary i) trivial st st' hs hinv (by simp only [exec, e3, Option.map_some])
  exact ⟨this.1, this.2.2⟩

theorem runUpdate_good {ts : List P} {v : V} {st : St P V M} (hg : Good cfg.pr steps st) :
    Good cfg.pr steps (runUpdate cfg.pr ts v st) ∧ (runUpdate cfg.pr ts v st).ratio = st.ratio ∧
      (runUpdate cfg.pr ts v st).σ = fun q => if q ∈ ts then v else st.σ q := by
  induction ts generalizing st with
  | nil => exact ⟨hg, rfl, by simp [runUpdate]⟩
  | cons p ts ih =>
    obtain ⟨h1, h2, h3⟩ := exec_inv (lim := cfg.lim) h.tame h.covers (.assign p v) trivial st _ hg.1 hg.2 rfl
    obtain ⟨i1, i2, i3⟩ := ih (st := assign cfg.pr p v st) ⟨h1, h3⟩
    refine ⟨i1, i2.trans h2, ?_⟩
    have e : (runUpdate cfg.pr (p :: ts) v st).σ = (runUpdate cfg.pr ts v (assign cfg.pr p v st)).σ := rfl
    rw [e, i3]
    funext q
    rw [assign_σ]
    by_cases hq : q ∈ ts
    · simp [hq]
    · by_cases hp : q = p
      · simp [hp]
      · simp [hq, hp]

theorem sweepAssign_good : ∀ (ts : List (List P)) (vs : List V) (st : St P V M), Good cfg.pr steps st →
    Good cfg.pr steps (sweepAssign cfg.pr ts vs st) ∧ (sweepAssign cfg.pr ts vs st).ratio = st.ratio ∧
      (sweepAssign cfg.pr ts vs st).σ = overwrite ts vs st.σ
  | [], vs, st, hg => ⟨hg, rfl, rfl⟩
  | t :: ts, [], st, hg => ⟨hg, rfl, rfl⟩
  | t :: ts, v :: vs, st, hg => by
    obtain ⟨h1, h2, h3⟩ := runUpdate_good h (ts := t) (v := v) hg
    obtain ⟨i1, i2, i3⟩ := sweepAssign_good ts vs _ h1
    exact ⟨i1, i2.trans h2, by rw [sweepAssign, i3, h3, overwrite]⟩

theorem advance_good : ∀ (l : List Nat) (cur : Nat → S) (st : St P V M), l.Nodup → (∀ i ∈ l, rank i + 1 < cfg.lim) →
    Good cfg.pr steps st → ∀ val, FromScratch cfg.pr st val → ∃ st',
      advance cfg l cur st = some (fun i => if i ∈ l then cfg.act (val i) (cur i) else cur i, st') ∧ Good cfg.pr steps st' ∧
      st'.σ = st.σ ∧ st'.ratio = st.ratio
  | [], cur, st, _, _, hg, val, hv => ⟨st, by simp [advance], hg, rfl, rfl⟩
  | i :: l, cur, st, hn, hd, hg, val, hv => by
    obtain ⟨st1, e1, g1, s1, r1⟩ := unitary_good h hg hv (hd i (by simp))
    obtain ⟨st2, e2, g2, s2, r2⟩ := advance_good l (fun j => if j = i then cfg.act (val i) (cur i) else cur j) st1
      (List.nodup_cons.1 hn).2 (fun j hj => hd j (by simp [hj])) g1 val
      (fromScratch_congr hv s1 r1 (g1.1.trans hg.1.symm))
    refine ⟨st2, ?_, g2, s2.trans s1, r2.trans r1⟩
    rw [advance, e1]
    simp only [e2, Option.some.injEq, Prod.mk.injEq, and_true]
    funext j
    by_cases hj : j = i
    · subst hj
      simp [(List.nodup_cons.1 hn).1]
    · simp [hj]

theorem evolveLoop_good : ∀ (n : Nat) (cur : Nat → S) (st : St P V M), Good cfg.pr steps st → ∀ val, FromScratch cfg.pr st val →
    ∃ st', evolveLoop cfg n cur st = some ((List.range n).map (fun k i => if i ∈ cfg.protos then (cfg.act (val i))^[k + 1] (cur i) else cur i), st') ∧
      Good cfg.pr steps st' ∧ st'.σ = st.σ ∧ st'.ratio = st.ratio
  | 0, cur, st, hg, val, hv => ⟨st, rfl, hg, rfl, rfl⟩
  | n + 1, cur, st, hg, val, hv => by
    obtain ⟨st1, e1, g1, s1, r1⟩ := advance_good h cfg.protos cur st h.nodup h.deep hg val hv
    obtain ⟨st2, e2, g2, s2, r2⟩ := evolveLoop_good n (fun i => if i ∈ cfg.protos then cfg.act (val i) (cur i) else cur i) st1 g1 val
      (fromScratch_congr hv s1 r1 (g1.1.trans hg.1.symm))
    refine ⟨st2, ?_, g2, s2.trans s1, r2.trans r1⟩
    rw [evolveLoop, e1]
    simp only [e2, List.range_succ_eq_map, List.map_cons, List.map_map]
    congr 3
    apply List.map_congr_left
    intro k _
    funext i
    by_cases hi : i ∈ cfg.protos
    · simp [hi]
    · simp [hi]

/-- The states at one sweep point. -/
def statesAt (cfg : Cfg P V M S) (val : Nat → M) (σ : P → V) : List (Nat → S) :=
  (List.range (cfg.stepCount σ + 1)).map fun k i => if i ∈ cfg.protos then (cfg.act (val i))^[k] (cfg.init i σ) else cfg.init i σ

omit h [DecidableEq P] [DecidableEq V] in
theorem statesAt_trajectory (val : Nat → M) (σ : P → V) (i : Nat) (hi : i ∈ cfg.protos) :
    Trajectory cfg.act (val i) (cfg.init i σ) (cfg.stepCount σ) ((statesAt cfg val σ).map fun c => c i) := by
  refine ⟨by simp [statesAt], by simp [statesAt, hi, List.range_succ_eq_map], ?_⟩
  intro k hk a ha
  simp only [statesAt, List.map_map, List.getElem?_map, List.getElem?_range (show k < cfg.stepCount σ + 1 by omega),
    List.getElem?_range (show k + 1 < cfg.stepCount σ + 1 by omega), Option.map_some, Function.comp, hi, if_true,
    Option.some.injEq] at ha ⊢
  rw [← ha, Function.iterate_succ_apply']

theorem point_good (fd : FloatDiv) (ind : Nat) (st : St P V M) (hg : Good cfg.pr steps st) (vals : List V)
    (hv : sweepPoint fd (Sweep.prepare {} cfg.sweeps) cfg.sweeps ind = some vals) :
    ∃ val st', FromScratch cfg.pr (init (overwrite cfg.targets vals st.σ) st.ratio steps : St P V M) val ∧
      point cfg fd ind st = some (statesAt cfg val (overwrite cfg.targets vals st.σ), st') ∧ Good cfg.pr steps st' ∧
      st'.σ = overwrite cfg.targets vals st.σ ∧ st'.ratio = st.ratio := by
  obtain ⟨g1, r1, s1⟩ := sweepAssign_good h cfg.targets vals st hg
  obtain ⟨val, hval⟩ := fromScratch_exists (pr := cfg.pr) (st := sweepAssign cfg.pr cfg.targets vals st)
    (fun i hl r hr => h.covers.rank i hl r (g1.1 ▸ hr))
  obtain ⟨st2, e2, g2, s2, r2⟩ := evolveLoop_good h (cfg.stepCount (sweepAssign cfg.pr cfg.targets vals st).σ)
    (fun i => cfg.init i (sweepAssign cfg.pr cfg.targets vals st).σ) _ g1 val hval
  refine ⟨val, st2, fromScratch_congr hval s1.symm r1.symm g1.1.symm, ?_, g2, s2.trans s1, r2.trans r1⟩
  simp only [point, hv, e2]
  rw [s1]
  simp only [statesAt, List.range_succ_eq_map (n := cfg.stepCount _), List.map_cons, List.map_map]
  congr 3
  funext i
  simp

omit h in
theorem val_unique {st : St P V M} {val val' : Nat → M} (C : Covers cfg.pr steps rank) (hs : st.steps = steps)
    (h1 : FromScratch cfg.pr st val) (h2 : FromScratch cfg.pr st val') : val' = val := by
  funext i
  exact fromScratch_unique (rank := rank) (fun i hl r hr => C.rank i hl r (hs ▸ hr)) h1 h2 (rank i + 1) i (by omega)

/-- What is stored at a sweep point, as a function of the parameters at the beginning of the run. -/
noncomputable def freshStates (cfg : Cfg P V M S) (ratio : Nat → V) (steps : Nat → List Ref) (rank : Nat → Nat) (σ : P → V) :
    List (Nat → S) :=
  statesAt cfg (fun i => scratchF cfg.pr (init σ ratio steps : St P V M) (rank i + 1) i) σ

theorem point_fresh (fd : FloatDiv) (ind : Nat) (st : St P V M) (hg : Good cfg.pr steps st) (vals : List V)
    (hv : sweepPoint fd (Sweep.prepare {} cfg.sweeps) cfg.sweeps ind = some vals) :
    ∃ st', point cfg fd ind st = some (freshStates cfg st.ratio steps rank (overwrite cfg.targets vals st.σ), st') ∧
      Good cfg.pr steps st' ∧ st'.σ = overwrite cfg.targets vals st.σ ∧ st'.ratio = st.ratio := by
  obtain ⟨val, st', h1, h2, h3⟩ := point_good h fd ind st hg vals hv
  refine ⟨st', ?_, h3⟩
  rw [h2]
  have := scratchF_fromScratch (pr := cfg.pr) (st := (init (overwrite cfg.targets vals st.σ) st.ratio steps : St P V M)) (rank := rank)
    (fun i hl r hr => h.covers.rank i hl r hr)
  rw [val_unique (cfg := cfg) h.covers rfl this h1]
  rfl

omit h [DecidableEq V] in
theorem overwrite_off : ∀ (ts : List (List P)) (vs : List V) (σ : P → V) (q : P), (∀ t ∈ ts, q ∉ t) → overwrite ts vs σ q = σ q
  | [], _, _, _, _ => rfl
  | _ :: _, [], _, _, _ => rfl
  | t :: ts, v :: vs, σ, q, hq => by
    rw [overwrite, overwrite_off ts vs _ q fun t' ht' => hq t' (by simp [ht'])]
    simp [hq t (by simp)]

omit h [DecidableEq V] in
theorem overwrite_congr : ∀ (ts : List (List P)) (vs : List V) (σ τ : P → V), ts.length ≤ vs.length →
    (∀ q, (∀ t ∈ ts, q ∉ t) → σ q = τ q) → overwrite ts vs σ = overwrite ts vs τ
  | [], _, σ, τ, _, hq => funext fun q => hq q (by simp)
  | _ :: _, [], _, _, hl, _ => by simp at hl
  | t :: ts, v :: vs, σ, τ, hl, hq => by
    rw [overwrite, overwrite]
    refine overwrite_congr ts vs _ _ (by simpa using hl) fun q hq' => ?_
    by_cases h : q ∈ t
    · simp [h]
    · simp only [h, if_false]
      exact hq q (by simp [h]; exact hq')

omit h [DecidableEq P] [DecidableEq V] in
theorem runSweepLoop_length (t : List Nat) : ∀ (ss : List (SweepObj V)) (k : Nat) (vals : List V), runSweepLoop t k ss = some vals →
    vals.length = ss.length
  | [], k, vals, e => by simp only [runSweepLoop, Option.some.injEq] at e; subst e; rfl
  | s :: ss, k, vals, e => by
    simp only [runSweepLoop] at e
    split at e
    · simp at e
    · split at e
      · simp at e
      · split at e
        · simp at e
        · rename_i vs hvs
          simp only [Option.some.injEq] at e
          subst e
          simp [runSweepLoop_length t ss _ _ hvs]

omit h [DecidableEq P] [DecidableEq V] in
theorem sweepPoint_length {fd : FloatDiv} {sweeps : List (SweepObj V)} {ind : Nat} {vals : List V}
    (e : sweepPoint fd (Sweep.prepare {} sweeps) sweeps ind = some vals) : vals.length = sweeps.length := by
  unfold sweepPoint at e
  split at e
  · split at e
    · simp at e
    · exact runSweepLoop_length _ _ _ _ e
  · rename_i hc
    simp only [Option.some.injEq] at e
    subst e
    cases sweeps with
    | nil => rfl
    | cons s ss =>
      exfalso
      apply hc
      rw [prepare_inds _ _ (by simp)]
      simp [axes]

/-- All points, whatever was done before: the states are those of the parameters before the run. -/
theorem seqPoints_good (fd : FloatDiv) (σ : P → V) (ratio : Nat → V) : ∀ (l : List Nat) (st : St P V M), Good cfg.pr steps st → st.ratio = ratio →
    (∀ q, (∀ t ∈ cfg.targets, q ∉ t) → st.σ q = σ q) →
    ∀ vs : List (List V), l.map (fun ind => sweepPoint fd (Sweep.prepare {} cfg.sweeps) cfg.sweeps ind) = vs.map some →
    ∃ st', seqPoints cfg fd l st = some (vs.map (fun v => freshStates cfg ratio steps rank (overwrite cfg.targets v σ)), st') ∧
      Good cfg.pr steps st' ∧ st'.ratio = ratio ∧ (∀ q, (∀ t ∈ cfg.targets, q ∉ t) → st'.σ q = σ q) ∧
      ∀ v, vs.getLast? = some v → st'.σ = overwrite cfg.targets v σ
  | [], st, hg, hr, hσ, vs, hv => by
    obtain rfl : vs = [] := by cases vs with | nil => rfl | cons => simp at hv
    exact ⟨st, rfl, hg, hr, hσ, by simp⟩
  | ind :: l, st, hg, hr, hσ, vs, hv => by
    cases vs with
    | nil => simp at hv
    | cons v vs =>
      simp only [List.map_cons, List.cons.injEq] at hv
      obtain ⟨st1, e1, g1, s1, r1⟩ := point_fresh h fd ind st hg v hv.1
      have hlen : cfg.targets.length ≤ v.length := by rw [sweepPoint_length hv.1, h.targets]
      have ho : overwrite cfg.targets v st.σ = overwrite cfg.targets v σ := overwrite_congr _ _ _ _ hlen hσ
      have hσ1 : ∀ q, (∀ t ∈ cfg.targets, q ∉ t) → st1.σ q = σ q := fun q hq => by
        rw [s1, overwrite_off _ _ _ _ hq, hσ q hq]
      obtain ⟨st2, e2, g2, r2, s2, l2⟩ := seqPoints_good fd σ ratio l st1 g1 (r1.trans hr) hσ1 vs hv.2
      refine ⟨st2, ?_, g2, r2, s2, ?_⟩
      · simp only [seqPoints, e1, e2, List.map_cons, ho, hr]
      · intro w hw
        cases vs with
        | nil =>
          simp only [List.getLast?_singleton, Option.some.injEq] at hw
          subst hw
          obtain rfl : l = [] := by simpa using hv.2
          simp only [seqPoints, Option.some.injEq, Prod.mk.injEq] at e2
          rw [← e2.2, s1, ho]
        | cons x y => exact l2 w (by simpa [List.getLast?_cons_cons] using hw)

theorem jobs_good (fd : FloatDiv) (st : St P V M) (hg : Good cfg.pr steps st) : ∀ (l : List Nat) (vs : List (List V)),
    l.map (fun ind => sweepPoint fd (Sweep.prepare {} cfg.sweeps) cfg.sweeps ind) = vs.map some →
    jobs cfg fd st l = some (vs.map (fun v => freshStates cfg st.ratio steps rank (overwrite cfg.targets v st.σ)))
  | [], vs, hv => by
    obtain rfl : vs = [] := by cases vs with | nil => rfl | cons => simp at hv
    rfl
  | ind :: l, vs, hv => by
    cases vs with
    | nil => simp at hv
    | cons v vs =>
      simp only [List.map_cons, List.cons.injEq] at hv
      obtain ⟨st1, e1, -⟩ := point_fresh h fd ind st hg v hv.1
      simp only [jobs, e1, jobs_good fd st hg l vs hv.2, List.map_cons]

theorem prepareAll_eq (l : List Nat) (hl : ∀ i ∈ l, rank i + 1 < cfg.lim) (st : St P V M) (hs : st.steps = steps) :
    prepareAll cfg l st = some st := by
  have key : ∀ (lim i : Nat), rank i < lim → Cache.prepare cfg.pr lim i st = some st := by
    intro lim
    induction lim with
    | zero => intro i hi; omega
    | succ lim ih =>
      intro i hi
      unfold Cache.prepare
      simp only [h.tame.notFixed i, Bool.false_eq_true, if_false]
      split
      · rfl
      · rename_i hl
        have : ∀ l : List Nat, (∀ j ∈ l, rank j < lim) →
            l.foldl (fun (acc : Option (St P V M)) j => acc.bind fun st => Cache.prepare cfg.pr lim j st) (some st) = some st := by
          intro l
          induction l with
          | nil => intro _; rfl
          | cons j l ihl =>
            intro hj
            rw [List.foldl_cons, Option.bind_some, ih j (hj j (by simp))]
            exact ihl fun k hk => hj k (by simp [hk])
        apply this
        intro j hj
        have := h.covers.rank i (not_leaf hl) (.orig j) (hs ▸ mem_origs.mp hj)
        simp only [Ref.id] at this
        omega
  induction l with
  | nil => rfl
  | cons i l ih =>
    rw [prepareAll, key cfg.lim i (by have := hl i (by simp); omega)]
    exact ih fun j hj => hl j (by simp [hj])

omit h [DecidableEq P] [DecidableEq V] in
/-- What `Verif.Sweep` says of a run in terms of the values delivered at the points. -/
theorem runAll_points (fd : FloatDiv) (sweeps : List (SweepObj V)) (store : List V → PyVal S) (r : PyVal S)
    (e : runAll fd sweeps store = some r) : ∃ vs : List (List V),
      (List.range (Sweep.prepare {} sweeps).indMultip).map (fun ind => sweepPoint fd (Sweep.prepare {} sweeps) sweeps ind) = vs.map some ∧
      finalise (Sweep.prepare {} sweeps).inds (vs.map store) = some r := by
  have key : ∀ (l : List Nat) (xs : List (PyVal S)), collectRuns (sweepPoint fd (Sweep.prepare {} sweeps) sweeps) store l = some xs →
      ∃ vs : List (List V), l.map (fun ind => sweepPoint fd (Sweep.prepare {} sweeps) sweeps ind) = vs.map some ∧ xs = vs.map store := by
    intro l
    induction l with
    | nil => intro xs e; simp only [collectRuns, Option.some.injEq] at e; exact ⟨[], rfl, e.symm⟩
    | cons a l ih =>
      intro xs e
      simp only [collectRuns] at e
      cases h1 : sweepPoint fd (Sweep.prepare {} sweeps) sweeps a with
      | none => simp [h1] at e
      | some v =>
        cases h2 : collectRuns (sweepPoint fd (Sweep.prepare {} sweeps) sweeps) store l with
        | none => simp [h1, h2] at e
        | some ys =>
          simp only [h1, h2, Option.some.injEq] at e
          obtain ⟨vs, e1, e2⟩ := ih ys h2
          exact ⟨v :: vs, by simp [h1, e1], by rw [← e, e2]; rfl⟩
  unfold runAll at e
  dsimp only at e
  split at e
  · simp at e
  · rename_i xs hxs
    obtain ⟨vs, e1, rfl⟩ := key _ _ hxs
    exact ⟨vs, e1, e⟩

/-- A run gives what `Verif.Sweep` says if at each point the states are those of freshly made objects. -/
theorem runSeq_fresh (fd : FloatDiv) (i : Nat) (st : St P V M) (hg : Good cfg.pr steps st) (σ : P → V)
    (hσ : ∀ q, (∀ t ∈ cfg.targets, q ∉ t) → st.σ q = σ q) (r : PyVal S)
    (e : runAll fd cfg.sweeps (fun v => stored i (freshStates cfg st.ratio steps rank (overwrite cfg.targets v σ))) = some r) :
    ∃ st', runSeq cfg fd i st = some (r, st') ∧ Good cfg.pr steps st' ∧ st'.ratio = st.ratio ∧
      (∀ q, (∀ t ∈ cfg.targets, q ∉ t) → st'.σ q = σ q) := by
  obtain ⟨vs, e1, e2⟩ := runAll_points fd _ _ _ e
  obtain ⟨st', e3, g, r', s', -⟩ := seqPoints_good h fd σ st.ratio _ st hg rfl hσ vs e1
  refine ⟨st', ?_, g, r', s'⟩
  simp only [runSeq, prepareAll_eq h cfg.protos h.deep st hg.1, e3, List.map_map]
  rw [show vs.map (stored i ∘ fun v => freshStates cfg st.ratio steps rank (overwrite cfg.targets v σ)) =
    vs.map (fun v => stored i (freshStates cfg st.ratio steps rank (overwrite cfg.targets v σ))) from rfl, e2]

theorem runPar_fresh (fd : FloatDiv) (i : Nat) (st : St P V M) (hg : Good cfg.pr steps st) (r : PyVal S)
    (e : runAll fd cfg.sweeps (fun v => stored i (freshStates cfg st.ratio steps rank (overwrite cfg.targets v st.σ))) = some r) :
    runPar cfg fd i st = some (r, st) := by
  obtain ⟨vs, e1, e2⟩ := runAll_points fd _ _ _ e
  simp only [runPar, prepareAll_eq h cfg.protos h.deep st hg.1, jobs_good h fd st hg _ vs e1, List.map_map]
  rw [show vs.map (stored i ∘ fun v => freshStates cfg st.ratio steps rank (overwrite cfg.targets v st.σ)) =
    vs.map (fun v => stored i (freshStates cfg st.ratio steps rank (overwrite cfg.targets v st.σ))) from rfl, e2]

end

/-! ### The statements -/

/-- The sweeps: at least one, the first not simultaneous, all long enough, and not too many points (as in C02). -/
structure SweepsOk (sweeps : List (SweepObj V)) : Prop where
  first : ∃ s ss, sweeps = s :: ss ∧ s.comb = false
  long : LongEnough sweeps
  few : (axes sweeps).prod ≤ 2 ^ 53

section
variable {cfg : Cfg P V M S} {steps : Nat → List Ref} {rank : Nat → Nat} {ratio : Nat → V}

omit [DecidableEq P] [DecidableEq V] in
theorem runAll_ok (fd : FloatDiv) {sweeps : List (SweepObj V)} (hs : SweepsOk sweeps) (store : List V → PyVal S) :
    ∃ r, runAll fd sweeps store = some r ∧ ∀ t, ValidIdx (axes sweeps) t → ∃ vals shown, Delivers sweeps t vals ∧
        nestedGet r t = some shown ∧ Shown (store vals) shown := by
  obtain ⟨⟨s, ss, rfl, hc⟩, hl, hf⟩ := hs
  exact C02_results_at_index fd s ss store hc hl hf

/-- A run from any reachable state: the states found at index `t` are those obtained with the unitary made from scratch with the parameters
of the point, whatever the run did before coming to the point and whatever was cached before the run.  The parameters that are not swept
and the ratios are as before. -/
theorem C72_run_partial (h : Nice cfg steps rank) (hs : SweepsOk cfg.sweeps) (fd : FloatDiv) (st : St P V M)
    (hr : Reachable cfg.pr cfg.lim ratio steps st) (i : Nat) (hi : i ∈ cfg.protos) :
    ∃ r st', runSeq cfg fd i st = some (r, st') ∧ st'.ratio = ratio ∧ st'.steps = steps ∧
      (∀ q, (∀ t ∈ cfg.targets, q ∉ t) → st'.σ q = st.σ q) ∧
      ∀ t, ValidIdx (axes cfg.sweeps) t → ∃ vals val x shown, Delivers cfg.sweeps t vals ∧
        FromScratch cfg.pr (init (overwrite cfg.targets vals st.σ) ratio steps : St P V M) val ∧
        Trajectory cfg.act (val i) (cfg.init i (overwrite cfg.targets vals st.σ)) (cfg.stepCount (overwrite cfg.targets vals st.σ)) x ∧
        nestedGet r t = some shown ∧ Shown (.list (x.map .atom)) shown := by
  obtain ⟨hg, rfl⟩ := reachable_good h hr
  obtain ⟨r, e, hpt⟩ := runAll_ok fd hs
    (fun v => stored i (freshStates cfg st.ratio steps rank (overwrite cfg.targets v st.σ)))
  obtain ⟨st', e1, g1, r1, s1⟩ := runSeq_fresh h fd i st hg st.σ (fun _ _ => rfl) r e
  refine ⟨r, st', e1, r1, g1.1, s1, fun t ht => ?_⟩
  obtain ⟨vals, shown, h1, h2, h3⟩ := hpt t ht
  refine ⟨vals, _, _, shown, h1, scratchF_fromScratch (rank := rank) (fun i hl r hr => h.covers.rank i hl r hr),
    statesAt_trajectory (fun i => scratchF cfg.pr (init (overwrite cfg.targets vals st.σ) st.ratio steps : St P V M) (rank i + 1) i) _ i hi,
    h2, ?_⟩
  rw [List.map_map]
  exact h3

/-- "As if it were the only one": a simulation without sweeps, freshly made with the parameters of the point, gives what is found at the
index of the point. -/
theorem C72_alone_partial (h : Nice cfg steps rank) (hs : SweepsOk cfg.sweeps) (fd : FloatDiv) (st : St P V M)
    (hr : Reachable cfg.pr cfg.lim ratio steps st) (i : Nat) :
    ∃ r st', runSeq cfg fd i st = some (r, st') ∧ ∀ t, ValidIdx (axes cfg.sweeps) t → ∃ vals shown one st1,
      Delivers cfg.sweeps t vals ∧ nestedGet r t = some shown ∧
      runSeq { cfg with sweeps := [], targets := [] } fd i (init (overwrite cfg.targets vals st.σ) ratio steps) = some (one, st1) ∧
      Shown one shown := by
  obtain ⟨hg, rfl⟩ := reachable_good h hr
  obtain ⟨r, e, hpt⟩ := runAll_ok fd hs
    (fun v => stored i (freshStates cfg st.ratio steps rank (overwrite cfg.targets v st.σ)))
  obtain ⟨st', e1, -⟩ := runSeq_fresh h fd i st hg st.σ (fun _ _ => rfl) r e
  refine ⟨r, st', e1, fun t ht => ?_⟩
  obtain ⟨vals, shown, h1, h2, h3⟩ := hpt t ht
  have h' : Nice { cfg with sweeps := [], targets := [] } steps rank := ⟨h.tame, h.covers, h.deep, h.nodup, rfl⟩
  obtain ⟨st1, e2, -⟩ := runSeq_fresh h' fd i (init (overwrite cfg.targets vals st.σ) st.ratio steps)
    ⟨rfl, fun val _ => init_inv cfg.pr _ _ _ val⟩ (overwrite cfg.targets vals st.σ) (fun _ _ => rfl) _ rfl
  exact ⟨vals, shown, _, st1, h1, h2, e2, h3⟩

/-- With and without multi-processing the results are the same; with it, the simulation itself is left as it was. -/
theorem C72_parallel_partial (h : Nice cfg steps rank) (hs : SweepsOk cfg.sweeps) (fd : FloatDiv) (st : St P V M)
    (hr : Reachable cfg.pr cfg.lim ratio steps st) (i : Nat) :
    ∃ r st', runSeq cfg fd i st = some (r, st') ∧ runPar cfg fd i st = some (r, st) := by
  obtain ⟨hg, rfl⟩ := reachable_good h hr
  obtain ⟨r, e, -⟩ := runAll_ok fd hs
    (fun v => stored i (freshStates cfg st.ratio steps rank (overwrite cfg.targets v st.σ)))
  obtain ⟨st', e1, -⟩ := runSeq_fresh h fd i st hg st.σ (fun _ _ => rfl) r e
  exact ⟨r, st', e1, runPar_fresh h fd i st hg r e⟩

/-- The results depend only on the parameters that are not swept: two simulations with the same objects, used in any way before, and a
second run of the same simulation give the same results. -/
theorem C72_rerun_partial (h : Nice cfg steps rank) (hs : SweepsOk cfg.sweeps) (fd : FloatDiv) (st st2 : St P V M)
    (hr : Reachable cfg.pr cfg.lim ratio steps st) (hr2 : Reachable cfg.pr cfg.lim ratio steps st2)
    (hσ : ∀ q, (∀ t ∈ cfg.targets, q ∉ t) → st2.σ q = st.σ q) (i : Nat) :
    ∃ r st' st2' st'', runSeq cfg fd i st = some (r, st') ∧ runSeq cfg fd i st2 = some (r, st2') ∧ runSeq cfg fd i st' = some (r, st'') := by
  obtain ⟨hg, rfl⟩ := reachable_good h hr
  obtain ⟨hg2, hrat⟩ := reachable_good h hr2
  obtain ⟨r, e, -⟩ := runAll_ok fd hs
    (fun v => stored i (freshStates cfg st.ratio steps rank (overwrite cfg.targets v st.σ)))
  obtain ⟨st', e1, g1, r1, s1⟩ := runSeq_fresh h fd i st hg st.σ (fun _ _ => rfl) r e
  obtain ⟨st2', e2, -⟩ := runSeq_fresh h fd i st2 hg2 st.σ hσ r (by rw [hrat]; exact e)
  obtain ⟨st'', e3, -⟩ := runSeq_fresh h fd i st' g1 st.σ s1 r (by rw [r1]; exact e)
  exact ⟨r, st', st2', st'', e1, e2, e3⟩

end

/-! ### A sweep over an attribute that marks nothing -/

/-- One step with two attributes: `true` is one whose assignment marks the step (as `angle` of a `SpinRotation`, `QGates.py:52-54`), `false`
one whose assignment does not (as its `phase`, a plain slot, `QGates.py:38,44`). -/
def oneStep (swept : Bool) : Cfg Bool Nat Nat Nat where
  pr := { alg := { one := 1, mul := fun a b => a * b, conj := id, mul_one := Nat.mul_one }, leaf := fun _ => true,
          U := fun _ σ _ => σ true + 10 * σ false, marks := fun p _ => p, upds := fun _ => [], fixed := fun _ => false }
  lim := 100
  sweeps := [{ values := [1, 2], comb := false }]
  targets := [[swept]]
  protos := [0]
  act := fun u s => u + s
  init := fun _ _ => 0
  stepCount := fun _ => 2

/-- All the points have the unitary of the first one: at index 1 there are the states 0, 10, 20 although with the attribute equal to 2 the
unitary is 20 and the states are 0, 20, 40.  A simulation that was never used gives the right ones with multi-processing. -/
theorem C72_unmarked :
    (runSeq (oneStep false) exactDiv 0 (init (fun _ => 0) (fun _ => 0) (fun _ => []))).map (fun x => (x.1, x.2.σ false, x.2.σ true)) =
      some (.list [.list [.atom 0, .atom 10, .atom 20], .list [.atom 0, .atom 10, .atom 20]], 2, 0) ∧
    Tame (oneStep false).pr (fun _ => []) ∧
    (∀ val, FromScratch (oneStep false).pr (init (overwrite [[false]] [2] (fun _ => 0)) (fun _ => 0) (fun _ => []) : St Bool Nat Nat) val →
      Trajectory (oneStep false).act (val 0) 0 2 [0, 20, 40]) ∧
    (runPar (oneStep false) exactDiv 0 (init (fun _ => 0) (fun _ => 0) (fun _ => []))).map Prod.fst =
      some (.list [.list [.atom 0, .atom 10, .atom 20], .list [.atom 0, .atom 20, .atom 40]]) := by
  refine ⟨rfl, ⟨fun _ => rfl, fun _ _ => rfl, fun _ => ⟨[], rfl, List.nodup_nil⟩, by simp⟩, fun val hv => ?_, rfl⟩
  have : val 0 = 20 := hv.leaf 0 rfl
  rw [this]
  refine ⟨rfl, rfl, fun k hk a ha => ?_⟩
  match k, hk with
  | 0, _ => obtain rfl : 0 = a := by simpa using ha
            rfl
  | 1, _ => obtain rfl : 20 = a := by simpa using ha
            rfl

/-- The unitary in use: a step of its own (2), a protocol of two steps (0), and a protocol that repeats the step of the other (1). -/
def twoProtos : Cfg Bool Nat Nat Nat where
  pr := { alg := { one := 1, mul := fun a b => a * b, conj := id, mul_one := Nat.mul_one }, leaf := fun i => decide (2 ≤ i),
          U := fun i σ _ => if i = 2 then σ true else σ false, marks := fun p i => decide (i < 2) || (p == decide (i = 2)), upds := fun _ => [],
          fixed := fun _ => false }
  lim := 100
  sweeps := [{ values := [1, 2], comb := false }, { values := [3, 5], comb := true }]
  targets := [[true], [false]]
  protos := [0, 1]
  act := fun u s => u + s
  init := fun _ σ => σ true
  stepCount := fun _ => 1

def twoSteps : Nat → List Ref := fun i => if i = 0 then [.orig 2, .orig 3] else if i = 1 then [.orig 2, .copy 2 false] else []

theorem twoProtos_nice : Nice twoProtos twoSteps (fun i => if i < 2 then 1 else 0) where
  tame := ⟨fun _ => rfl, fun _ _ => rfl, fun _ => ⟨[], rfl, List.nodup_nil⟩, fun i j h => by
    simp only [twoSteps] at h
    split at h
    · simp at h
    · split at h <;> simp at h⟩
  covers := by
    refine ⟨fun i hi σ τ r h => ?_, fun i hi r hr p hp => ?_, fun i hi r hr => ?_⟩
    · simp only [twoProtos, decide_eq_true_eq] at hi
      by_cases h2 : i = 2
      · subst h2
        exact h true (by decide)
      · have := h false (by simp [twoProtos, h2])
        simpa [twoProtos, h2] using this
    · simp only [twoProtos, decide_eq_false_iff_not, not_le] at hi
      simp [twoProtos, hi]
    · simp only [twoProtos, decide_eq_false_iff_not, not_le] at hi
      simp only [hi, if_true]
      simp only [twoSteps] at hr
      split at hr
      · simp only [List.mem_cons, List.not_mem_nil, or_false] at hr
        rcases hr with rfl | rfl <;> simp [Ref.id]
      · split at hr
        · simp only [List.mem_cons, List.not_mem_nil, or_false] at hr
          rcases hr with rfl | rfl <;> simp [Ref.id]
        · simp at hr
  deep := by intro i _; simp only [twoProtos]; split <;> omega
  nodup := by decide
  targets := rfl

theorem twoProtos_sweeps : SweepsOk twoProtos.sweeps where
  first := ⟨_, _, rfl, rfl⟩
  long := by
    intro j s hj n hn
    match j with
    | 0 => simp [twoProtos] at hj; subst hj; simp [twoProtos, axes, axisOf] at hn; simp [← hn]
    | 1 => simp [twoProtos] at hj; subst hj; simp [twoProtos, axes, axisOf] at hn; simp [← hn]
    | j + 2 => simp [twoProtos] at hj
  few := by decide

/-- Two nested sweeps and two protocols that share a step, after some use of the objects. -/
example (fd : FloatDiv) (st : St Bool Nat Nat)
    (e : Cache.run twoProtos.pr 100 [.unitary 1, .assign true 7, .unitary 0] (init (fun _ => 1) (fun _ => 0) twoSteps) = some st) (i : Nat)
    (hi : i ∈ twoProtos.protos) : ∃ r st', runSeq twoProtos fd i st = some (r, st') ∧ runPar twoProtos fd i st = some (r, st) :=
  C72_parallel_partial twoProtos_nice twoProtos_sweeps fd st ⟨_, _, by simp [Cmd.Plain], e⟩ i

/-- The values: at `[1, 0]` the first attribute is 2, the second 3; the protocols have the unitaries 6 and 4. -/
example : ((runSeq twoProtos exactDiv 0 (init (fun _ => 1) (fun _ => 0) twoSteps)).bind fun x => nestedGet x.1 [1, 0]) =
      some (.list [.atom 2, .atom 8]) ∧
    ((runSeq twoProtos exactDiv 1 (init (fun _ => 1) (fun _ => 0) twoSteps)).bind fun x => nestedGet x.1 [1, 0]) =
      some (.list [.atom 2, .atom 6]) := ⟨rfl, rfl⟩

end Verif.Whole
