import Verif.TimeDep.Lemmas

/-!
# C73: time dependent terms are evaluated at the time of the running simulation
-/
namespace Verif.TimeDep
open Verif.Sweep Verif.Cache
open Verif.Whole (Good Nice Reachable SweepsOk overwrite stored)

variable {P V M S : Type} [DecidableEq P] [DecidableEq V]

/-! ### Specification -/

/-- The parameters at time `t`: each function gives its attribute the value at that time. -/
def atTime (fs : List (TimeFn P V)) (σ : P → V) (t : V) : P → V := fun q =>
  match fs.find? fun f => decide (f.1 = q) with
  | some f => f.2 σ t
  | none => σ q

/-- `q` is assigned by a function. -/
def Timed (cfg : Cfg P V M S) (q : P) : Prop := ∃ i ∈ cfg.protos, ∃ f ∈ cfg.fns i, f.1 = q

/-- Equal up to the attributes assigned by functions. -/
def Agree (cfg : Cfg P V M S) (σ τ : P → V) : Prop := ∀ q, ¬ Timed cfg q → σ q = τ q

/-- Following the bounds from `s`, one comes to `r` in `n` steps. -/
inductive Leads (h : Bound.Heap V) : Nat → Nat → Nat → Prop
  | here (s : Nat) : Leads h 0 s s
  | up {n s b r : Nat} : h.tb s = some b → Leads h n b r → Leads h (n + 1) s r

/-- The restrictions; `dt` is the step size of the running simulation. -/
structure TimeOk (cfg : Cfg P V M S) (steps : Nat → List Ref) (dt : (P → V) → V) : Prop where
  /-- the running simulation is not bound to another one -/
  own : ∀ σ, (cfg.sims σ).tb cfg.run = none
  /-- the simulations of the systems lead to it, and it has a step size -/
  leads : ∃ m, ∀ σ, Bound.readF (cfg.sims σ) m cfg.run .step = some (some (dt σ)) ∧
    ∀ i ∈ cfg.protos, ∀ j, Touch cfg.pr steps i j → cfg.fns j ≠ [] → ∃ n, Leads (cfg.sims σ) n (cfg.simOf j) cfg.run ∧ n + m < cfg.lim
  dtOff : ∀ σ τ, Agree cfg σ τ → dt σ = dt τ
  /-- no attribute is assigned by two functions of a system -/
  nodup : ∀ i ∈ cfg.protos, ((cfg.fns i).map Prod.fst).Nodup
  /-- no function uses an attribute assigned by one -/
  reads : ∀ i ∈ cfg.protos, ∀ f ∈ cfg.fns i, ∀ σ τ t, Agree cfg σ τ → f.2 σ t = f.2 τ t
  /-- the functions called by a step are among those of the protocol -/
  incl : ∀ i ∈ cfg.protos, ∀ j, Touch cfg.pr steps i j → ∀ f ∈ cfg.fns j, f ∈ cfg.fns i
  /-- the time dependent attributes that mark a step are assigned by the functions of the protocol -/
  uses : ∀ i ∈ cfg.protos, ∀ j, Touch cfg.pr steps i j → cfg.pr.leaf j = true → ∀ p, cfg.pr.marks p j = true → Timed cfg p →
    p ∈ (cfg.fns i).map Prod.fst
  initOff : ∀ i σ τ, Agree cfg σ τ → cfg.init i σ = cfg.init i τ
  countOff : ∀ σ τ, Agree cfg σ τ → cfg.stepCount σ = cfg.stepCount τ

/-- `x` are the states of protocol `i` when step `k` has the unitary made from scratch with the parameters at `dt * (k + 1)`. -/
def Driven (cfg : Cfg P V M S) (ratio : Nat → V) (steps : Nat → List Ref) (dt : V) (σ : P → V) (i n : Nat) (x : List S) : Prop :=
  x.length = n + 1 ∧ x[0]? = some (cfg.init i σ) ∧ ∀ k < n, ∀ a, x[k]? = some a → ∃ val,
    FromScratch cfg.pr (init (atTime (cfg.fns i) σ (cfg.clock.times dt (k + 1))) ratio steps : St P V M) val ∧
    x[k + 1]? = some (cfg.act (val i) a)

/-! ### The time -/

omit [DecidableEq V] in
theorem readF_mono {h : Bound.Heap V} {k : Bound.Key} : ∀ {m m' s : Nat} {v : Option V}, m ≤ m' → Bound.readF h m s k = some v →
    Bound.readF h m' s k = some v := by
  intro m
  induction m with
  | zero => intro m' s v _ e; simp [Bound.readF] at e
  | succ m ih =>
    intro m' s v hm e
    obtain ⟨m', rfl⟩ : ∃ l, m' = l + 1 := ⟨m' - 1, by omega⟩
    unfold Bound.readF at e ⊢
    split at e
    · exact ih (by omega) e
    · exact e

omit [DecidableEq V] in
/-- The current time of a simulation that leads to `r` is that of `r`. -/
theorem currentTime_leads (c : Clock V) {h : Bound.Heap V} (index : Nat → Int) {r m : Nat} {dt : V} (ho : h.tb r = none)
    (hd : Bound.readF h m r .step = some (some dt)) : ∀ {n s lim : Nat}, Leads h n s r → n + m < lim →
      currentTime c h index lim s = c.times dt (index r + 1) := by
  intro n s lim hl
  induction hl generalizing lim with
  | here s =>
    intro hm
    obtain ⟨lim, rfl⟩ : ∃ l, lim = l + 1 := ⟨lim - 1, by omega⟩
    rw [currentTime, ho]
    dsimp only
    rw [readF_mono (by omega) hd]
  | up hb _ ih =>
    intro hm
    obtain ⟨lim, rfl⟩ : ∃ l, lim = l + 1 := ⟨lim - 1, by omega⟩
    rw [currentTime, hb]
    exact ih ho hd (by omega)

/-! ### The values -/

theorem updated_local (us : List (Upd P V)) : ∀ {σ τ : P → V} {p : P}, σ p = τ p → updated us σ p = updated us τ p := by
  induction us with
  | nil => exact fun e => e
  | cons u us ih =>
    intro σ τ p e
    unfold updated at ih ⊢
    rw [List.foldl_cons, List.foldl_cons]
    apply ih
    by_cases h : p ∈ u.ps
    · simp [h]
    · simp [h, e]

section
variable {cfg : Cfg P V M S} {steps : Nat → List Ref} {rank : Nat → Nat} {dt : (P → V) → V}
  (h : Nice cfg.toCfg steps rank) (t : TimeOk cfg steps dt)

omit [DecidableEq P] [DecidableEq V] in
theorem Agree.refl (σ : P → V) : Agree cfg σ σ := fun _ _ => rfl

omit [DecidableEq P] [DecidableEq V] in
theorem Agree.trans {σ τ υ : P → V} (a : Agree cfg σ τ) (b : Agree cfg τ υ) : Agree cfg σ υ := fun q hq => (a q hq).trans (b q hq)

theorem atTime_mem {fs : List (TimeFn P V)} (hn : (fs.map Prod.fst).Nodup) {f : TimeFn P V} (hf : f ∈ fs) (σ : P → V) (t : V) :
    atTime fs σ t f.1 = f.2 σ t := by
  induction fs with
  | nil => simp at hf
  | cons g fs ih =>
    simp only [List.map_cons, List.nodup_cons] at hn
    unfold atTime at ih ⊢
    rcases List.mem_cons.mp hf with rfl | hf
    · simp
    · have : g.1 ≠ f.1 := fun e => hn.1 (e ▸ List.mem_map_of_mem hf)
      rw [List.find?_cons_of_neg (by simpa using this)]
      exact ih hn.2 hf

theorem atTime_off {fs : List (TimeFn P V)} {q : P} (hq : q ∉ fs.map Prod.fst) (σ : P → V) (t : V) : atTime fs σ t q = σ q := by
  unfold atTime
  rw [List.find?_eq_none.mpr]
  intro f hf e
  exact hq (by simp only [decide_eq_true_eq] at e; exact e ▸ List.mem_map_of_mem hf)

theorem scratch_init (C : Covers cfg.pr steps rank) (σ : P → V) (ratio : Nat → V) : FromScratch cfg.pr (init σ ratio steps : St P V M)
    (fun i => scratchF cfg.pr (init σ ratio steps : St P V M) (rank i + 1) i) :=
  scratchF_fromScratch (rank := rank) (fun i hl r hr => C.rank i hl r hr)

/-- Values made from scratch depend only on what marks the leaves below. -/
theorem fromScratch_local (C : Covers cfg.pr steps rank) {st st' : St P V M} {val val' : Nat → M} (hv : FromScratch cfg.pr st val)
    (hv' : FromScratch cfg.pr st' val') (hs : st.steps = steps) (hs' : st'.steps = steps) (hr : st'.ratio = st.ratio) :
    ∀ (n i : Nat), rank i < n → (∀ j, Touch cfg.pr steps i j → cfg.pr.leaf j = true → ∀ p, cfg.pr.marks p j = true → st'.σ p = st.σ p) →
      val' i = val i := by
  intro n
  induction n with
  | zero => intro i hi; omega
  | succ n ih =>
    intro i hi hp
    by_cases hl : cfg.pr.leaf i = true
    · rw [hv.leaf i hl, hv'.leaf i hl, hr]
      exact C.leafDep i hl _ _ _ fun p hm => updated_local _ (hp i (.refl i) hl p hm)
    · have hl := not_leaf hl
      rw [hv.comp i hl, hv'.comp i hl, hs, hs']
      have : ∀ (rs : List Ref), (∀ r ∈ rs, r ∈ steps i) → ∀ acc,
          rs.foldl (fun (acc : M) r => cfg.pr.alg.mul (val' r.id) acc) acc = rs.foldl (fun (acc : M) r => cfg.pr.alg.mul (val r.id) acc) acc := by
        intro rs
        induction rs with
        | nil => intro _ _; rfl
        | cons r rs ihr =>
          intro hm acc
          have hr := hm r (by simp)
          rw [List.foldl_cons, List.foldl_cons, ih r.id (by have := C.rank i hl r hr; omega) fun j hj => hp j (.head hl hr hj)]
          exact ihr (fun r hr => hm r (by simp [hr])) _
      exact this _ (fun _ h => h) _

include h in
theorem callFns_good {σ : P → V} (tm : V) : ∀ (fs : List (TimeFn P V)) (st : St P V M), Good cfg.pr steps st →
    (∀ f ∈ fs, Timed cfg f.1) → (∀ f ∈ fs, ∀ σ τ t, Agree cfg σ τ → f.2 σ t = f.2 τ t) → (fs.map Prod.fst).Nodup → Agree cfg st.σ σ →
    Good cfg.pr steps (callFns cfg.pr tm fs st) ∧ (callFns cfg.pr tm fs st).ratio = st.ratio ∧
      Agree cfg (callFns cfg.pr tm fs st).σ σ ∧ (∀ f ∈ fs, (callFns cfg.pr tm fs st).σ f.1 = f.2 σ tm) ∧
      ∀ q, q ∉ fs.map Prod.fst → (callFns cfg.pr tm fs st).σ q = st.σ q
  | [], st, hg, _, _, _, ha => ⟨hg, rfl, ha, by simp, fun _ _ => rfl⟩
  | f :: fs, st, hg, ht, hr, hn, ha => by
    simp only [List.map_cons, List.nodup_cons] at hn
    obtain ⟨h1, h2, h3⟩ := exec_inv (lim := cfg.lim) h.tame h.covers (.assign f.1 (f.2 st.σ tm)) trivial st _ hg.1 hg.2 rfl
    have ha1 : Agree cfg (assign cfg.pr f.1 (f.2 st.σ tm) st).σ σ := by
      intro q hq
      have hne : q ≠ f.1 := by rintro rfl; exact hq (ht f (by simp))
      rw [assign_σ, if_neg hne]
      exact ha q hq
    obtain ⟨i1, i2, i3, i4, i5⟩ := callFns_good tm fs _ ⟨h1, h3⟩ (fun g hg => ht g (by simp [hg])) (fun g hg => hr g (by simp [hg])) hn.2 ha1
    refine ⟨i1, i2.trans h2, i3, fun g hg => ?_, fun q hq => ?_⟩
    · rcases List.mem_cons.mp hg with rfl | hg
      · rw [callFns, i5 _ hn.1, assign_σ, if_pos rfl]
        exact hr g (by simp) _ _ _ ha
      · exact i4 g hg
    · simp only [List.map_cons, List.mem_cons, not_or] at hq
      rw [callFns, i5 q hq.2, assign_σ, if_neg hq.1]

omit [DecidableEq P] [DecidableEq V] in
include t in
theorem timeOf_eq {i : Nat} (hi : i ∈ cfg.protos) {j : Nat} (hj : Touch cfg.pr steps i j) (hf : cfg.fns j ≠ []) (ind : Nat) {σ τ : P → V}
    (ha : Agree cfg σ τ) : timeOf cfg ind j σ = cfg.clock.times (dt τ) (ind + 1) := by
  obtain ⟨m, hm⟩ := t.leads
  obtain ⟨hd, hl⟩ := hm σ
  obtain ⟨n, hn, hlt⟩ := hl i hi j hj hf
  unfold timeOf
  rw [currentTime_leads cfg.clock _ (t.own σ) hd hn hlt, if_pos rfl, t.dtOff _ _ ha]

/-- The state of protocol `i` after `k` steps. -/
noncomputable def freshState (cfg : Cfg P V M S) (ratio : Nat → V) (steps : Nat → List Ref) (rank : Nat → Nat) (dt : (P → V) → V) (σ : P → V)
    (i : Nat) : Nat → S
  | 0 => cfg.init i σ
  | k + 1 => cfg.act (scratchF cfg.pr (init (atTime (cfg.fns i) σ (cfg.clock.times (dt σ) (k + 1))) ratio steps : St P V M) (rank i + 1) i)
      (freshState cfg ratio steps rank dt σ i k)

include h t

theorem unitaryT_good {st : St P V M} (hg : Good cfg.pr steps st) {σ : P → V} (ha : Agree cfg st.σ σ) {i : Nat} (hi : i ∈ cfg.protos)
    (ind : Nat) : ∃ st', unitaryT cfg ind i st = some (some (scratchF cfg.pr
        (init (atTime (cfg.fns i) σ (cfg.clock.times (dt σ) (ind + 1))) st.ratio steps : St P V M) (rank i + 1) i), st') ∧
      Good cfg.pr steps st' ∧ st'.ratio = st.ratio ∧ Agree cfg st'.σ σ := by
  obtain ⟨g1, r1, a1, s1, -⟩ := callFns_good h (σ := σ) (timeOf cfg ind i st.σ) (cfg.fns i) st hg (fun f hf => ⟨i, hi, f, hf, rfl⟩) (t.reads i hi)
    (t.nodup i hi) ha
  have hst : ∀ f ∈ cfg.fns i, (hook cfg ind i st).σ f.1 = f.2 σ (cfg.clock.times (dt σ) (ind + 1)) := by
    intro f hf
    rw [← timeOf_eq t hi (.refl i) (List.ne_nil_of_mem hf) ind ha]
    exact s1 f hf
  have a1 : Agree cfg (hook cfg ind i st).σ σ := a1
  have g1 : Good cfg.pr steps (hook cfg ind i st) := g1
  have q : Quiet cfg ind steps i (hook cfg ind i st).σ := by
    intro j hj f hf
    rw [timeOf_eq t hi hj (List.ne_nil_of_mem hf) ind a1, hst f (t.incl i hi j hj f hf)]
    exact t.reads i hi f (t.incl i hi j hj f hf) _ _ _ a1
  obtain ⟨val, hval⟩ := fromScratch_exists (pr := cfg.pr) (st := hook cfg ind i st) (fun i hl r hr => h.covers.rank i hl r (g1.1 ▸ hr))
  obtain ⟨st', e, g2, s2, r2⟩ := Whole.unitary_good h g1 hval (h.deep i hi)
  refine ⟨st', ?_, g2, r2.trans r1, by rw [s2]; exact a1⟩
  rw [unitaryT_eq h.tame i st g1.1 hval (g1.2 val hval) q, e]
  congr 3
  refine fromScratch_local (cfg := cfg) h.covers (scratch_init h.covers _ st.ratio) hval rfl g1.1 r1 (rank i + 1) i (by omega) fun j hj hl p hp => ?_
  show (hook cfg ind i st).σ p = atTime (cfg.fns i) σ (cfg.clock.times (dt σ) (ind + 1)) p
  by_cases hm : p ∈ (cfg.fns i).map Prod.fst
  · obtain ⟨f, hf, rfl⟩ := List.mem_map.mp hm
    rw [hst f hf, atTime_mem (t.nodup i hi) hf]
  · rw [atTime_off hm, a1 p fun ht => hm (t.uses i hi j hj hl p hp ht)]

theorem advance_good (ratio : Nat → V) {σ : P → V} (ind : Nat) : ∀ (l : List Nat) (cur : Nat → S) (st : St P V M), l.Nodup → (∀ i ∈ l, i ∈ cfg.protos) →
    Good cfg.pr steps st → st.ratio = ratio → Agree cfg st.σ σ → (∀ i ∈ l, cur i = freshState cfg ratio steps rank dt σ i ind) → ∃ st',
      advance cfg ind l cur st = some (fun i => if i ∈ l then freshState cfg ratio steps rank dt σ i (ind + 1) else cur i, st') ∧
      Good cfg.pr steps st' ∧ st'.ratio = ratio ∧ Agree cfg st'.σ σ
  | [], cur, st, _, _, hg, hr, ha, _ => ⟨st, by simp [advance], hg, hr, ha⟩
  | i :: l, cur, st, hn, hd, hg, hr, ha, hc => by
    obtain ⟨st1, e1, g1, r1, a1⟩ := unitaryT_good h t hg ha (hd i (by simp)) ind
    have hn' := List.nodup_cons.1 hn
    obtain ⟨st2, e2, g2, r2, a2⟩ := advance_good ratio ind l
      (fun j => if j = i then freshState cfg ratio steps rank dt σ i (ind + 1) else cur j) st1
      hn'.2 (fun j hj => hd j (by simp [hj])) g1 (r1.trans hr) a1
      (fun j hj => by
        have hne : j ≠ i := by rintro rfl; exact hn'.1 hj
        rw [if_neg hne]; exact hc j (by simp [hj]))
    refine ⟨st2, ?_, g2, r2, a2⟩
    rw [advance, e1]
    dsimp only
    rw [hr, hc i (by simp)]
    show advance cfg ind l (fun j => if j = i then freshState cfg ratio steps rank dt σ i (ind + 1) else cur j) st1 = _
    rw [e2]
    simp only [Option.some.injEq, Prod.mk.injEq, and_true]
    funext j
    by_cases hj : j = i
    · subst hj
      simp [hn'.1]
    · simp [hj]

theorem evolveLoop_good (ratio : Nat → V) {σ : P → V} : ∀ (n ind : Nat) (cur : Nat → S) (st : St P V M),
    Good cfg.pr steps st → st.ratio = ratio → Agree cfg st.σ σ → (∀ i ∈ cfg.protos, cur i = freshState cfg ratio steps rank dt σ i ind) → ∃ st',
      evolveLoop cfg ind n cur st = some ((List.range n).map (fun k i => if i ∈ cfg.protos then freshState cfg ratio steps rank dt σ i (ind + k + 1)
        else cur i), st') ∧ Good cfg.pr steps st' ∧ st'.ratio = ratio ∧ Agree cfg st'.σ σ
  | 0, ind, cur, st, hg, hr, ha, _ => ⟨st, rfl, hg, hr, ha⟩
  | n + 1, ind, cur, st, hg, hr, ha, hc => by
    obtain ⟨st1, e1, g1, r1, a1⟩ := advance_good h t ratio ind cfg.protos cur st h.nodup (fun _ hi => hi) hg hr ha hc
    obtain ⟨st2, e2, g2, r2, a2⟩ := evolveLoop_good ratio n (ind + 1)
      (fun i => if i ∈ cfg.protos then freshState cfg ratio steps rank dt σ i (ind + 1) else cur i) st1 g1 r1 a1 (fun i hi => by simp [hi])
    refine ⟨st2, ?_, g2, r2, a2⟩
    rw [evolveLoop, e1]
    simp only [e2, List.range_succ_eq_map, List.map_cons, List.map_map]
    congr 3
    apply List.map_congr_left
    intro k _
    funext i
    by_cases hi : i ∈ cfg.protos
    · simp only [Function.comp, hi, if_true]
      congr 1
      omega
    · simp [hi]

end

/-- The states at one sweep point. -/
noncomputable def statesAt (cfg : Cfg P V M S) (ratio : Nat → V) (steps : Nat → List Ref) (rank : Nat → Nat) (dt : (P → V) → V) (σ : P → V) :
    List (Nat → S) :=
  (List.range (cfg.stepCount σ + 1)).map fun k i => if i ∈ cfg.protos then freshState cfg ratio steps rank dt σ i k else cfg.init i σ

omit [DecidableEq V] in
theorem overwrite_local : ∀ (ts : List (List P)) (vs : List V) (σ τ : P → V) (q : P), ts.length ≤ vs.length →
    ((∀ t ∈ ts, q ∉ t) → σ q = τ q) → overwrite ts vs σ q = overwrite ts vs τ q
  | [], _, σ, τ, q, _, hq => hq (by simp)
  | _ :: _, [], _, _, _, hl, _ => by simp at hl
  | t :: ts, v :: vs, σ, τ, q, hl, hq => by
    rw [overwrite, overwrite]
    refine overwrite_local ts vs _ _ q (by simpa using hl) fun hq' => ?_
    by_cases h : q ∈ t
    · simp [h]
    · simp only [h, if_false]
      exact hq (by simp [h]; exact hq')

section
variable {cfg : Cfg P V M S} {steps : Nat → List Ref} {rank : Nat → Nat} {dt : (P → V) → V}
  (h : Nice cfg.toCfg steps rank) (t : TimeOk cfg steps dt)
include h t

theorem freshState_congr (ratio : Nat → V) {σ τ : P → V} (ha : Agree cfg σ τ) {i : Nat} (hi : i ∈ cfg.protos) (k : Nat) :
    freshState cfg ratio steps rank dt σ i k = freshState cfg ratio steps rank dt τ i k := by
  induction k with
  | zero => exact t.initOff i _ _ ha
  | succ k ih =>
    rw [freshState, freshState, ih, t.dtOff _ _ ha]
    congr 1
    refine fromScratch_local (cfg := cfg) h.covers (scratch_init h.covers (atTime (cfg.fns i) τ (cfg.clock.times (dt τ) (k + 1))) ratio)
      (scratch_init h.covers (atTime (cfg.fns i) σ (cfg.clock.times (dt τ) (k + 1))) ratio) rfl rfl rfl (rank i + 1) i (by omega)
      fun j hj hl p hp => ?_
    show atTime _ _ _ p = atTime _ _ _ p
    by_cases hm : p ∈ (cfg.fns i).map Prod.fst
    · obtain ⟨f, hf, rfl⟩ := List.mem_map.mp hm
      rw [atTime_mem (t.nodup i hi) hf, atTime_mem (t.nodup i hi) hf]
      exact t.reads i hi f hf _ _ _ ha
    · rw [atTime_off hm, atTime_off hm]
      exact ha p fun ht => hm (t.uses i hi j hj hl p hp ht)

theorem statesAt_congr (ratio : Nat → V) {σ τ : P → V} (ha : Agree cfg σ τ) :
    statesAt cfg ratio steps rank dt σ = statesAt cfg ratio steps rank dt τ := by
  unfold statesAt
  rw [t.countOff _ _ ha]
  refine List.map_congr_left fun k _ => funext fun i => ?_
  split
  · rename_i hi; exact freshState_congr h t ratio ha hi k
  · exact t.initOff i _ _ ha

omit t in
theorem statesAt_driven (ratio : Nat → V) (σ : P → V) {i : Nat} (hi : i ∈ cfg.protos) :
    Driven cfg ratio steps (dt σ) σ i (cfg.stepCount σ) ((statesAt cfg ratio steps rank dt σ).map fun c => c i) := by
  refine ⟨by simp [statesAt], by simp [statesAt, List.range_succ_eq_map, freshState], ?_⟩
  intro k hk a ha
  refine ⟨_, scratch_init h.covers _ ratio, ?_⟩
  simp only [statesAt, List.map_map, List.getElem?_map, List.getElem?_range (show k < cfg.stepCount σ + 1 by omega),
    List.getElem?_range (show k + 1 < cfg.stepCount σ + 1 by omega), Option.map_some, Function.comp, hi, if_true,
    Option.some.injEq] at ha ⊢
  rw [← ha, freshState]

theorem point_good (fd : FloatDiv) (ind : Nat) (st : St P V M) (hg : Good cfg.pr steps st) (vals : List V)
    (hv : sweepPoint fd (Sweep.prepare {} cfg.sweeps) cfg.sweeps ind = some vals) (σ : P → V)
    (hσ : ∀ q, ¬ Timed cfg q → (∀ t ∈ cfg.targets, q ∉ t) → st.σ q = σ q) :
    ∃ st', point cfg fd ind st = some (statesAt cfg st.ratio steps rank dt (overwrite cfg.targets vals σ), st') ∧ Good cfg.pr steps st' ∧
      st'.ratio = st.ratio ∧ Agree cfg st'.σ (overwrite cfg.targets vals σ) := by
  obtain ⟨g1, r1, s1⟩ := Whole.sweepAssign_good h cfg.targets vals st hg
  have hlen : cfg.targets.length ≤ vals.length := by rw [Whole.sweepPoint_length hv, h.targets]
  have ha : Agree cfg (Whole.sweepAssign cfg.pr cfg.targets vals st).σ (overwrite cfg.targets vals σ) := by
    intro q hq
    rw [s1]
    exact overwrite_local _ _ _ _ q hlen (hσ q hq)
  obtain ⟨st2, e2, g2, r2, a2⟩ := evolveLoop_good h t st.ratio (cfg.stepCount (Whole.sweepAssign cfg.pr cfg.targets vals st).σ) 0
    (fun i => cfg.init i (Whole.sweepAssign cfg.pr cfg.targets vals st).σ) _ g1 r1 ha (fun i _ => t.initOff i _ _ ha)
  refine ⟨st2, ?_, g2, r2, a2⟩
  simp only [point, hv, e2]
  rw [t.countOff _ _ ha]
  simp only [statesAt, List.range_succ_eq_map (n := cfg.stepCount _), List.map_cons, List.map_map]
  congr 3
  · funext i
    rw [t.initOff i _ _ ha]
    simp [freshState]
  · refine List.map_congr_left fun k _ => funext fun i => ?_
    simp only [Function.comp, Nat.zero_add]
    rw [t.initOff i _ _ ha]

theorem seqPoints_good (fd : FloatDiv) (σ : P → V) (ratio : Nat → V) : ∀ (l : List Nat) (st : St P V M), Good cfg.pr steps st → st.ratio = ratio →
    (∀ q, ¬ Timed cfg q → (∀ t ∈ cfg.targets, q ∉ t) → st.σ q = σ q) →
    ∀ vs : List (List V), l.map (fun ind => sweepPoint fd (Sweep.prepare {} cfg.sweeps) cfg.sweeps ind) = vs.map some →
    ∃ st', seqPoints cfg fd l st = some (vs.map (fun v => statesAt cfg ratio steps rank dt (overwrite cfg.targets v σ)), st') ∧
      Good cfg.pr steps st' ∧ st'.ratio = ratio ∧ (∀ q, ¬ Timed cfg q → (∀ t ∈ cfg.targets, q ∉ t) → st'.σ q = σ q)
  | [], st, hg, hr, hσ, vs, hv => by
    obtain rfl : vs = [] := by cases vs with | nil => rfl | cons => simp at hv
    exact ⟨st, rfl, hg, hr, hσ⟩
  | ind :: l, st, hg, hr, hσ, vs, hv => by
    cases vs with
    | nil => simp at hv
    | cons v vs =>
      simp only [List.map_cons, List.cons.injEq] at hv
      obtain ⟨st1, e1, g1, r1, a1⟩ := point_good h t fd ind st hg v hv.1 σ hσ
      have hσ1 : ∀ q, ¬ Timed cfg q → (∀ t ∈ cfg.targets, q ∉ t) → st1.σ q = σ q := fun q hq hq' => by
        rw [a1 q hq, Whole.overwrite_off _ _ _ _ hq']
      obtain ⟨st2, e2, g2, r2, s2⟩ := seqPoints_good fd σ ratio l st1 g1 (r1.trans hr) hσ1 vs hv.2
      refine ⟨st2, ?_, g2, r2, s2⟩
      simp only [seqPoints, e1, e2, List.map_cons, hr]

theorem jobs_good (fd : FloatDiv) (st : St P V M) (hg : Good cfg.pr steps st) : ∀ (l : List Nat) (vs : List (List V)),
    l.map (fun ind => sweepPoint fd (Sweep.prepare {} cfg.sweeps) cfg.sweeps ind) = vs.map some →
    jobs cfg fd st l = some (vs.map (fun v => statesAt cfg st.ratio steps rank dt (overwrite cfg.targets v st.σ)))
  | [], vs, hv => by
    obtain rfl : vs = [] := by cases vs with | nil => rfl | cons => simp at hv
    rfl
  | ind :: l, vs, hv => by
    cases vs with
    | nil => simp at hv
    | cons v vs =>
      simp only [List.map_cons, List.cons.injEq] at hv
      obtain ⟨st1, e1, -⟩ := point_good h t fd ind st hg v hv.1 st.σ (fun _ _ _ => rfl)
      simp only [jobs, e1, jobs_good fd st hg l vs hv.2, List.map_cons]

theorem runSeq_fresh (fd : FloatDiv) (i : Nat) (st : St P V M) (hg : Good cfg.pr steps st) (σ : P → V)
    (hσ : ∀ q, ¬ Timed cfg q → (∀ t ∈ cfg.targets, q ∉ t) → st.σ q = σ q) (r : PyVal S)
    (e : runAll fd cfg.sweeps (fun v => stored i (statesAt cfg st.ratio steps rank dt (overwrite cfg.targets v σ))) = some r) :
    ∃ st', runSeq cfg fd i st = some (r, st') ∧ Good cfg.pr steps st' ∧ st'.ratio = st.ratio ∧
      (∀ q, ¬ Timed cfg q → (∀ t ∈ cfg.targets, q ∉ t) → st'.σ q = σ q) := by
  obtain ⟨vs, e1, e2⟩ := Whole.runAll_points fd _ _ _ e
  obtain ⟨st', e3, g, r', s'⟩ := seqPoints_good h t fd σ st.ratio _ st hg rfl hσ vs e1
  refine ⟨st', ?_, g, r', s'⟩
  simp only [runSeq, e3, List.map_map]
  rw [show vs.map (stored i ∘ fun v => statesAt cfg st.ratio steps rank dt (overwrite cfg.targets v σ)) =
    vs.map (fun v => stored i (statesAt cfg st.ratio steps rank dt (overwrite cfg.targets v σ))) from rfl, e2]

theorem runPar_fresh (fd : FloatDiv) (i : Nat) (st : St P V M) (hg : Good cfg.pr steps st) (r : PyVal S)
    (e : runAll fd cfg.sweeps (fun v => stored i (statesAt cfg st.ratio steps rank dt (overwrite cfg.targets v st.σ))) = some r) :
    runPar cfg fd i st = some (r, st) := by
  obtain ⟨vs, e1, e2⟩ := Whole.runAll_points fd _ _ _ e
  simp only [runPar, jobs_good h t fd st hg _ vs e1, List.map_map]
  rw [show vs.map (stored i ∘ fun v => statesAt cfg st.ratio steps rank dt (overwrite cfg.targets v st.σ)) =
    vs.map (fun v => stored i (statesAt cfg st.ratio steps rank dt (overwrite cfg.targets v st.σ))) from rfl, e2]

end

/-! ### The statements -/

section
variable {cfg : Cfg P V M S} {steps : Nat → List Ref} {rank : Nat → Nat} {ratio : Nat → V} {dt : (P → V) → V}

/-- A run with sweeps: at every sweep point the unitary of step `k` is the one made from scratch with the swept parameters and the values the
functions give at the time `dt * (k + 1)` of the running simulation, whatever was computed and cached before. -/
theorem C73_run_partial (h : Nice cfg.toCfg steps rank) (t : TimeOk cfg steps dt) (hs : SweepsOk cfg.sweeps) (fd : FloatDiv) (st : St P V M)
    (hr : Reachable cfg.pr cfg.lim ratio steps st) (i : Nat) (hi : i ∈ cfg.protos) :
    ∃ r st', runSeq cfg fd i st = some (r, st') ∧ st'.ratio = ratio ∧ st'.steps = steps ∧
      (∀ q, ¬ Timed cfg q → (∀ t ∈ cfg.targets, q ∉ t) → st'.σ q = st.σ q) ∧
      ∀ t, ValidIdx (axes cfg.sweeps) t → ∃ vals x shown, Delivers cfg.sweeps t vals ∧
        Driven cfg ratio steps (dt (overwrite cfg.targets vals st.σ)) (overwrite cfg.targets vals st.σ) i
          (cfg.stepCount (overwrite cfg.targets vals st.σ)) x ∧
        nestedGet r t = some shown ∧ Shown (.list (x.map .atom)) shown := by
  obtain ⟨hg, rfl⟩ := Whole.reachable_good h hr
  obtain ⟨r, e, hpt⟩ := Whole.runAll_ok fd hs
    (fun v => stored i (statesAt cfg st.ratio steps rank dt (overwrite cfg.targets v st.σ)))
  obtain ⟨st', e1, g1, r1, s1⟩ := runSeq_fresh h t fd i st hg st.σ (fun _ _ _ => rfl) r e
  refine ⟨r, st', e1, r1, g1.1, s1, fun t' ht => ?_⟩
  obtain ⟨vals, shown, h1, h2, h3⟩ := hpt t' ht
  refine ⟨vals, _, shown, h1, statesAt_driven h st.ratio _ hi, h2, ?_⟩
  rw [List.map_map]
  exact h3

/-- The same without sweeps: one evolution from any reachable state. -/
theorem C73_evolution_partial (h : Nice cfg.toCfg steps rank) (t : TimeOk cfg steps dt) (st : St P V M)
    (hr : Reachable cfg.pr cfg.lim ratio steps st) (n : Nat) : ∃ l st', evolveLoop cfg 0 n (fun i => cfg.init i st.σ) st = some (l, st') ∧
      (∀ q, ¬ Timed cfg q → st'.σ q = st.σ q) ∧
      ∀ i ∈ cfg.protos, Driven cfg ratio steps (dt st.σ) st.σ i n (cfg.init i st.σ :: l.map fun c => c i) := by
  obtain ⟨hg, rfl⟩ := Whole.reachable_good h hr
  obtain ⟨st2, e2, -, -, a2⟩ := evolveLoop_good h t st.ratio (σ := st.σ) n 0 (fun i => cfg.init i st.σ) st hg rfl (Agree.refl _) (fun i _ => rfl)
  refine ⟨_, st2, e2, a2, fun i hi => ?_⟩
  have key : (cfg.init i st.σ :: ((List.range n).map (fun k i => if i ∈ cfg.protos then freshState cfg st.ratio steps rank dt st.σ i (0 + k + 1)
        else cfg.init i st.σ)).map fun c => c i) = (List.range (n + 1)).map (freshState cfg st.ratio steps rank dt st.σ i) := by
    rw [List.range_succ_eq_map]
    simp only [List.map_map, List.map_cons]
    congr 1
    refine List.map_congr_left fun k _ => ?_
    simp [hi]
  rw [key]
  refine ⟨by simp, by simp [List.range_succ_eq_map, freshState], ?_⟩
  intro k hk a ha
  refine ⟨_, scratch_init h.covers _ st.ratio, ?_⟩
  simp only [List.getElem?_map, List.getElem?_range (show k < n + 1 by omega),
    List.getElem?_range (show k + 1 < n + 1 by omega), Option.map_some, Option.some.injEq] at ha ⊢
  rw [← ha, freshState]

/-- With and without multi-processing the results are the same. -/
theorem C73_parallel_partial (h : Nice cfg.toCfg steps rank) (t : TimeOk cfg steps dt) (hs : SweepsOk cfg.sweeps) (fd : FloatDiv)
    (st : St P V M) (hr : Reachable cfg.pr cfg.lim ratio steps st) (i : Nat) :
    ∃ r st', runSeq cfg fd i st = some (r, st') ∧ runPar cfg fd i st = some (r, st) := by
  obtain ⟨hg, rfl⟩ := Whole.reachable_good h hr
  obtain ⟨r, e, -⟩ := Whole.runAll_ok fd hs
    (fun v => stored i (statesAt cfg st.ratio steps rank dt (overwrite cfg.targets v st.σ)))
  obtain ⟨st', e1, -⟩ := runSeq_fresh h t fd i st hg st.σ (fun _ _ _ => rfl) r e
  exact ⟨r, st', e1, runPar_fresh h t fd i st hg r e⟩

/-- A second run gives the same results: the values left by the first in the time dependent attributes do not matter. -/
theorem C73_rerun_partial (h : Nice cfg.toCfg steps rank) (t : TimeOk cfg steps dt) (hs : SweepsOk cfg.sweeps) (fd : FloatDiv)
    (st : St P V M) (hr : Reachable cfg.pr cfg.lim ratio steps st) (i : Nat) :
    ∃ r st' st'', runSeq cfg fd i st = some (r, st') ∧ runSeq cfg fd i st' = some (r, st'') := by
  obtain ⟨hg, rfl⟩ := Whole.reachable_good h hr
  obtain ⟨r, e, -⟩ := Whole.runAll_ok fd hs
    (fun v => stored i (statesAt cfg st.ratio steps rank dt (overwrite cfg.targets v st.σ)))
  obtain ⟨st', e1, g1, r1, s1⟩ := runSeq_fresh h t fd i st hg st.σ (fun _ _ _ => rfl) r e
  obtain ⟨st'', e3, -⟩ := runSeq_fresh h t fd i st' g1 st.σ s1 r (by rw [r1]; exact e)
  exact ⟨r, st', st'', e1, e3⟩

end

end Verif.TimeDep
