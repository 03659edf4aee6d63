import Verif.Cache.Model
/-!
# The cache invariant

`val i` is the unitary of `i` computed from scratch.  An unmarked protocol holds it or nothing.
-/
namespace Verif.Cache
variable {P V M : Type} [DecidableEq P] [DecidableEq V]

/-- Parameters while the updates are in force. -/
def updated (us : List (Upd P V)) (σ : P → V) : P → V :=
  us.foldl (fun (σ : P → V) u => fun q => if q ∈ u.ps then u.value else σ q) σ

/-- The unitaries computed from scratch: the leaves from the parameters with the leaf's updates in force, the protocols as the
product of their steps, the first step to the right. -/
structure FromScratch (pr : Prog P V M) (st : St P V M) (val : Nat → M) : Prop where
  leaf : ∀ i, pr.leaf i = true → val i = pr.U i (updated (pr.upds i) st.σ) (st.ratio i)
  comp : ∀ i, pr.leaf i = false → val i = (st.steps i).foldl (fun (acc : M) r => pr.alg.mul (val r.id) acc) pr.alg.one

/-- The restrictions under which the caches are right. -/
structure Tame (pr : Prog P V M) (steps : Nat → List Ref) : Prop where
  /-- no protocol is fixed -/
  notFixed : ∀ i, pr.fixed i = false
  /-- updates belong to leaves -/
  updLeaf : ∀ i, pr.leaf i = false → pr.upds i = []
  /-- every update has one system, and the updates of a step have different attributes -/
  updOne : ∀ i, ∃ pvs : List (P × V), (pr.upds i) = pvs.map (fun pv => ⟨[pv.1], pv.2⟩) ∧ (pvs.map Prod.fst).Nodup
  /-- no Hermitian conjugate copies -/
  noHc : ∀ i j, Ref.copy j true ∉ steps i

/-- The cache of `j` is right or empty. -/
def Ok (val : Nat → M) (st : St P V M) (j : Nat) : Prop := st.mat j = none ∨ st.mat j = some (val j)

/-- An unmarked protocol has a right or empty cache. -/
def Inv (val : Nat → M) (st : St P V M) : Prop := ∀ j, st.flag j = false → Ok val st j

/-- What never changes while matrices are computed. -/
structure Same (st st' : St P V M) : Prop where
  σ : st'.σ = st.σ
  ratio : st'.ratio = st.ratio
  steps : st'.steps = st.steps

theorem Same.refl (st : St P V M) : Same st st := ⟨rfl, rfl, rfl⟩
theorem Same.trans {a b c : St P V M} (x : Same a b) (y : Same b c) : Same a c :=
  ⟨y.σ.trans x.σ, y.ratio.trans x.ratio, y.steps.trans x.steps⟩

theorem FromScratch.same {pr : Prog P V M} {st st' : St P V M} {val : Nat → M} (h : FromScratch pr st val) (s : Same st st') :
    FromScratch pr st' val :=
  ⟨fun i hi => by rw [s.σ, s.ratio]; exact h.leaf i hi, fun i hi => by rw [s.steps]; exact h.comp i hi⟩

/-- `j` is `i` or a step of it, of its steps, and so on, copies not counted. -/
inductive Sub (pr : Prog P V M) (steps : Nat → List Ref) : Nat → Nat → Prop
  | refl (i : Nat) : Sub pr steps i i
  | head {i k j : Nat} : pr.leaf i = false → k ∈ origs (steps i) → Sub pr steps k j → Sub pr steps i j

theorem mem_origs {rs : List Ref} {j : Nat} : j ∈ origs rs ↔ Ref.orig j ∈ rs := by
  unfold origs
  rw [List.mem_filterMap]
  constructor
  · rintro ⟨r, hr, e⟩
    cases r with
    | orig i => simp only [Option.some.injEq] at e; subst e; exact hr
    | copy i hc => simp at e
  · intro h; exact ⟨.orig j, h, rfl⟩

/-! ### The getter of the flags -/

/-- The getter changes flags only, and only from false to true. -/
structure Grow (st st' : St P V M) : Prop where
  same : Same st st'
  mat : st'.mat = st.mat
  hcm : st'.hcm = st.hcm
  cnt : st'.cnt = st.cnt
  flag : ∀ j, st.flag j = true → st'.flag j = true

theorem Grow.refl (st : St P V M) : Grow st st := ⟨.refl st, rfl, rfl, rfl, fun _ h => h⟩
theorem Grow.trans {a b c : St P V M} (x : Grow a b) (y : Grow b c) : Grow a c :=
  ⟨x.same.trans y.same, y.mat.trans x.mat, y.hcm.trans x.hcm, y.cnt.trans x.cnt, fun j h => y.flag j (x.flag j h)⟩

theorem Grow.inv {val : Nat → M} {st st' : St P V M} (g : Grow st st') (h : Inv val st) : Inv val st' := by
  intro j hj
  have : st.flag j = false := by
    cases hh : st.flag j with
    | false => rfl
    | true => rw [g.flag j hh] at hj; simp at hj
  unfold Ok; rw [g.mat]; exact h j this

theorem effLoop_spec {g : Nat → St P V M → Option (Bool × St P V M)} {steps : Nat → List Ref} {F : Nat → St P V M → Prop}
    (hg : ∀ i st b st', st.steps = steps → g i st = some (b, st') → Grow st st' ∧ (b = false → st' = st ∧ F i st)) :
    ∀ (rs : List Ref) (st : St P V M) (b : Bool) (st' : St P V M), st.steps = steps → effLoop g rs st = some (b, st') →
      Grow st st' ∧ (b = false → st' = st ∧ ∀ r ∈ rs, F r.id st) := by
  intro rs
  induction rs with
  | nil =>
    intro st b st' hs e
    simp only [effLoop, Option.some.injEq, Prod.mk.injEq] at e
    obtain ⟨rfl, rfl⟩ := e
    exact ⟨.refl _, fun _ => ⟨rfl, by simp⟩⟩
  | cons r rs ih =>
    intro st b st' hs e
    unfold effLoop at e
    split at e
    · simp at e
    · rename_i st1 e1
      simp only [Option.some.injEq, Prod.mk.injEq] at e
      obtain ⟨rfl, rfl⟩ := e
      exact ⟨(hg _ _ _ _ hs e1).1, by simp⟩
    · rename_i st1 e1
      obtain ⟨g1, f1⟩ := hg _ _ _ _ hs e1
      obtain ⟨rfl, f1⟩ := f1 rfl
      obtain ⟨g2, f2⟩ := ih st1 b st' hs e
      refine ⟨g2, fun hb => ⟨(f2 hb).1, ?_⟩⟩
      intro r' hr'
      rcases List.mem_cons.mp hr' with rfl | hr'
      · exact f1
      · exact (f2 hb).2 r' hr'

/-- `j` is reached from `i` through steps and copies. -/
inductive Touch (pr : Prog P V M) (steps : Nat → List Ref) : Nat → Nat → Prop
  | refl (i : Nat) : Touch pr steps i i
  | head {i j : Nat} {r : Ref} : pr.leaf i = false → r ∈ steps i → Touch pr steps r.id j → Touch pr steps i j

theorem Sub.touch {pr : Prog P V M} {steps : Nat → List Ref} {i j : Nat} (h : Sub pr steps i j) : Touch pr steps i j := by
  induction h with
  | refl => exact .refl _
  | head h1 h2 _ ih => exact .head h1 (mem_origs.mp h2) ih

theorem setFlag_grow (st : St P V M) (i : Nat) : Grow st (setFlag st i true) :=
  ⟨⟨rfl, rfl, rfl⟩, rfl, rfl, rfl, fun j h => by simp only [setFlag]; split <;> simp_all⟩

/-- If the getter answers no, no protocol reached from `i` is marked. -/
theorem eff_spec (pr : Prog P V M) (steps : Nat → List Ref) : ∀ (lim i : Nat) (st : St P V M) (b : Bool) (st' : St P V M),
    st.steps = steps → eff pr lim i st = some (b, st') →
      Grow st st' ∧ (b = false → st' = st ∧ ∀ j, Touch pr steps i j → st.flag j = false) := by
  intro lim
  induction lim with
  | zero => intro i st b st' _ e; simp [eff] at e
  | succ lim ih =>
    intro i st b st' hs e
    unfold eff at e
    split at e
    · rename_i hl
      simp only [Option.some.injEq, Prod.mk.injEq] at e
      obtain ⟨rfl, rfl⟩ := e
      refine ⟨.refl _, fun hb => ⟨rfl, ?_⟩⟩
      intro j hj
      cases hj with
      | refl => exact hb
      | head h1 => rw [hl] at h1; simp at h1
    · rename_i hl
      have key := effLoop_spec (g := eff pr lim) (steps := steps) (F := fun i st => ∀ j, Touch pr steps i j → st.flag j = false)
        (fun i st b st' hs e => ih i st b st' hs e) (st.steps i) st
      split at e
      · simp at e
      · rename_i st1 e1
        simp only [Option.some.injEq, Prod.mk.injEq] at e
        obtain ⟨rfl, rfl⟩ := e
        exact ⟨(key _ _ hs e1).1.trans (setFlag_grow _ _), by simp⟩
      · rename_i st1 e1
        simp only [Option.some.injEq, Prod.mk.injEq] at e
        obtain ⟨rfl, rfl⟩ := e
        obtain ⟨k1, k2⟩ := key _ _ hs e1
        obtain ⟨rfl, k2⟩ := k2 rfl
        refine ⟨.refl _, fun hb => ⟨rfl, ?_⟩⟩
        intro j hj
        cases hj with
        | refl => exact hb
        | head _ hr ht => exact k2 _ (hs ▸ hr) j ht

theorem puGet_spec (pr : Prog P V M) (steps : Nat → List Ref) (lim : Nat) : ∀ (rs : List Ref) (st : St P V M) (bs : List Bool)
    (st' : St P V M), st.steps = steps → puGet pr lim rs st = some (bs, st') → Grow st st' ∧ bs.length = rs.length := by
  intro rs
  induction rs with
  | nil =>
    intro st bs st' _ e
    simp only [puGet, Option.some.injEq, Prod.mk.injEq] at e
    obtain ⟨rfl, rfl⟩ := e
    exact ⟨.refl _, rfl⟩
  | cons r rs ih =>
    intro st bs st' hs e
    unfold puGet at e
    split at e
    · simp at e
    rename_i b st1 e1
    have g1 := (eff_spec pr steps lim _ _ _ _ hs e1).1
    split at e
    · simp at e
    rename_i bs2 st2 e2
    simp only [Option.some.injEq, Prod.mk.injEq] at e
    obtain ⟨rfl, rfl⟩ := e
    obtain ⟨g2, h2⟩ := ih st1 _ _ (g1.same.steps.trans hs) e2
    exact ⟨g1.trans g2, by simp [h2]⟩

/-- A flag read as false belongs to a protocol that was not marked when it was read. -/
theorem puGet_false (pr : Prog P V M) (steps : Nat → List Ref) (lim : Nat) {val : Nat → M} :
    ∀ (rs : List Ref) (st : St P V M) (bs : List Bool) (st' : St P V M), st.steps = steps → Inv val st →
      puGet pr lim rs st = some (bs, st') → ∀ (k j : Nat), rs[k]? = some (.orig j) → bs[k]? = some false → Ok val st' j := by
  intro rs
  induction rs with
  | nil => intro st bs st' _ _ _ k j h; simp at h
  | cons r rs ih =>
    intro st bs st' hs hi e k j hk hb
    unfold puGet at e
    split at e
    · simp at e
    rename_i b st1 e1
    obtain ⟨g1, f1⟩ := eff_spec pr steps lim _ _ _ _ hs e1
    split at e
    · simp at e
    rename_i bs2 st2 e2
    simp only [Option.some.injEq, Prod.mk.injEq] at e
    obtain ⟨rfl, rfl⟩ := e
    have hs1 := g1.same.steps.trans hs
    cases k with
    | zero =>
      simp only [List.getElem?_cons_zero, Option.some.injEq] at hk hb
      subst hk; subst hb
      obtain ⟨rfl, f1⟩ := f1 rfl
      have := hi j (f1 j (.refl _))
      unfold Ok; rw [(puGet_spec pr steps lim _ _ _ _ hs1 e2).1.mat]; exact this
    | succ k =>
      simp only [List.getElem?_cons_succ] at hk hb
      exact ih st1 _ _ hs1 (g1.inv hi) e2 k j hk hb

/-- Setting the flags back changes flags only, and unmarks only protocols read as unmarked. -/
theorem puSet_spec {val : Nat → M} : ∀ (rs : List Ref) (bs : List Bool) (st : St P V M), Inv val st →
    (∀ (k j : Nat), rs[k]? = some (.orig j) → bs[k]? = some false → Ok val st j) →
    let st' := puSet rs bs st
    Inv val st' ∧ Same st st' ∧ st'.mat = st.mat ∧ st'.hcm = st.hcm ∧ st'.cnt = st.cnt := by
  intro rs
  induction rs with
  | nil => intro bs st hi _; cases bs <;> exact ⟨hi, .refl _, rfl, rfl, rfl⟩
  | cons r rs ih =>
    intro bs st hi hok
    cases bs with
    | nil => cases r <;> exact ⟨hi, .refl _, rfl, rfl, rfl⟩
    | cons b bs =>
      cases r with
      | copy j hc =>
        exact ih bs st hi fun k j hk hb => hok (k + 1) j (by simpa using hk) (by simpa using hb)
      | orig j =>
        have hi' : Inv val (setFlag st j b) := by
          intro x hx
          simp only [setFlag] at hx
          by_cases hxj : x = j
          · subst hxj
            simp only [if_true] at hx
            subst hx
            exact hok 0 x rfl rfl
          · rw [if_neg hxj] at hx; exact hi x hx
        obtain ⟨a1, a2, a3, a4, a5⟩ := ih bs (setFlag st j b) hi'
          fun k j' hk hb => hok (k + 1) j' (by simpa using hk) (by simpa using hb)
        exact ⟨a1, ⟨a2.σ, a2.ratio, a2.steps⟩, a3, a4, a5⟩

/-! ### Clearing -/

/-- Clearing unmarks the protocol and its steps, and changes nothing else. -/
theorem clear_spec (pr : Prog P V M) (steps : Nat → List Ref) : ∀ (lim i : Nat) (st st' : St P V M), st.steps = steps →
    clear pr lim i st = some st' →
    Same st st' ∧ st'.mat = st.mat ∧ st'.hcm = st.hcm ∧ st'.cnt = st.cnt ∧
      (∀ j, st'.flag j = st.flag j ∨ (Sub pr steps i j ∧ st'.flag j = false)) ∧ (∀ j, Sub pr steps i j → st'.flag j = false) := by
  intro lim
  induction lim with
  | zero => intro i st st' _ e; simp [clear] at e
  | succ lim ih =>
    intro i st st' hs e
    unfold clear at e
    dsimp only at e
    split at e
    · rename_i hl
      simp only [Option.some.injEq] at e
      subst e
      refine ⟨⟨rfl, rfl, rfl⟩, rfl, rfl, rfl, fun j => ?_, fun j hj => ?_⟩
      · by_cases h : j = i
        · subst h; right; exact ⟨.refl _, by simp [setFlag]⟩
        · left; simp [setFlag, h]
      · cases hj with
        | refl => simp [setFlag]
        | head h1 => rw [hl] at h1; simp at h1
    · rename_i hl
      have hl : pr.leaf i = false := by simpa using hl
      have key : ∀ (l : List Nat) (st st' : St P V M), st.steps = steps →
          l.foldl (fun (acc : Option (St P V M)) j => acc.bind fun st => clear pr lim j st) (some st) = some st' →
          Same st st' ∧ st'.mat = st.mat ∧ st'.hcm = st.hcm ∧ st'.cnt = st.cnt ∧
          (∀ j, st'.flag j = st.flag j ∨ ((∃ k ∈ l, Sub pr steps k j) ∧ st'.flag j = false)) ∧
          (∀ j, (∃ k ∈ l, Sub pr steps k j) → st'.flag j = false) := by
        intro l
        induction l with
        | nil =>
          intro st st' _ e
          simp only [List.foldl_nil, Option.some.injEq] at e
          subst e
          exact ⟨.refl _, rfl, rfl, rfl, fun _ => Or.inl rfl, by simp⟩
        | cons k l ihl =>
          intro st st' hs e
          rw [List.foldl_cons, Option.bind_some] at e
          cases e1 : clear pr lim k st with
          | none =>
            rw [e1] at e
            have : ∀ l : List Nat, l.foldl (fun (acc : Option (St P V M)) j => acc.bind fun st => clear pr lim j st) none = none := by
              intro l; induction l with
              | nil => rfl
              | cons _ _ ih => simpa using ih
            rw [this] at e; simp at e
          | some st1 =>
            rw [e1] at e
            obtain ⟨a1, a2, a3, a4, a5, a6⟩ := ih k st st1 hs e1
            obtain ⟨b1, b2, b3, b4, b5, b6⟩ := ihl st1 st' (a1.steps.trans hs) e
            refine ⟨a1.trans b1, b2.trans a2, b3.trans a3, b4.trans a4, fun j => ?_, fun j hj => ?_⟩
            · rcases b5 j with h | ⟨⟨m, h1, h2⟩, h3⟩
              · rcases a5 j with h' | ⟨h1, h2⟩
                · exact Or.inl (h.trans h')
                · exact Or.inr ⟨⟨k, by simp, h1⟩, h.trans h2⟩
              · exact Or.inr ⟨⟨m, by simp [h1], h2⟩, h3⟩
            · obtain ⟨m, h1, h2⟩ := hj
              rcases List.mem_cons.mp h1 with rfl | h1
              · rcases b5 j with h | ⟨-, h⟩
                · exact h.trans (a6 j h2)
                · exact h
              · exact b6 j ⟨m, h1, h2⟩
      obtain ⟨a1, a2, a3, a4, a5, a6⟩ := key _ _ _ (by exact hs) e
      refine ⟨⟨a1.σ, a1.ratio, a1.steps⟩, a2, a3, a4, fun j => ?_, fun j hj => ?_⟩
      · rcases a5 j with h | ⟨⟨k, h1, h2⟩, h3⟩
        · by_cases hj : j = i
          · subst hj; right; refine ⟨.refl _, ?_⟩; rw [h]; simp [setFlag]
          · left; rw [h]; simp [setFlag, hj]
        · right; exact ⟨.head hl (by simpa [setFlag, hs] using h1) h2, h3⟩
      · cases hj with
        | refl =>
          rcases a5 i with h | ⟨-, h⟩
          · rw [h]; simp [setFlag]
          · exact h
        | head _ hk hr => exact a6 j ⟨_, by simpa [setFlag, hs] using hk, hr⟩

/-! ### Updates -/

theorem assign_σ (pr : Prog P V M) (p : P) (v : V) (st : St P V M) (q : P) :
    (assign pr p v st).σ q = if q = p then v else st.σ q := by
  unfold assign
  by_cases h : v = st.σ p
  · rw [if_neg (by simpa using h)]
    by_cases hq : q = p
    · subst hq; simp [h]
    · simp [hq]
  · rw [if_pos h]

theorem assign_rest (pr : Prog P V M) (p : P) (v : V) (st : St P V M) :
    (assign pr p v st).ratio = st.ratio ∧ (assign pr p v st).steps = st.steps ∧ (assign pr p v st).mat = st.mat ∧
    (assign pr p v st).hcm = st.hcm ∧ (assign pr p v st).cnt = st.cnt ∧
    ∀ j, st.flag j = true → (assign pr p v st).flag j = true := by
  unfold assign
  split
  · exact ⟨rfl, rfl, rfl, rfl, rfl, fun j h => by simp [h]⟩
  · exact ⟨rfl, rfl, rfl, rfl, rfl, fun j h => h⟩

/-- Like `Grow`, but the parameters may change. -/
structure Shift (st st' : St P V M) : Prop where
  ratio : st'.ratio = st.ratio
  steps : st'.steps = st.steps
  mat : st'.mat = st.mat
  hcm : st'.hcm = st.hcm
  cnt : st'.cnt = st.cnt
  flag : ∀ j, st.flag j = true → st'.flag j = true

theorem Shift.refl (st : St P V M) : Shift st st := ⟨rfl, rfl, rfl, rfl, rfl, fun _ h => h⟩
theorem Shift.trans {a b c : St P V M} (x : Shift a b) (y : Shift b c) : Shift a c :=
  ⟨y.ratio.trans x.ratio, y.steps.trans x.steps, y.mat.trans x.mat, y.hcm.trans x.hcm, y.cnt.trans x.cnt,
    fun j h => y.flag j (x.flag j h)⟩
theorem assign_shift (pr : Prog P V M) (p : P) (v : V) (st : St P V M) : Shift st (assign pr p v st) := by
  obtain ⟨a, b, c, d, e, f⟩ := assign_rest pr p v st
  exact ⟨a, b, c, d, e, f⟩

theorem setups_one (pr : Prog P V M) : ∀ (pvs : List (P × V)) (st : St P V M), (pvs.map Prod.fst).Nodup →
    ∃ st', setups pr (pvs.map fun pv => ⟨[pv.1], pv.2⟩) st = some (pvs.map (fun pv => st.σ pv.1), st') ∧
      Shift st st' ∧ st'.σ = updated (pvs.map fun pv => ⟨[pv.1], pv.2⟩) st.σ ∧
      ∀ q, q ∉ pvs.map Prod.fst → st'.σ q = st.σ q := by
  intro pvs
  induction pvs with
  | nil => intro st _; exact ⟨st, rfl, .refl _, rfl, fun _ _ => rfl⟩
  | cons pv pvs ih =>
    intro st hn
    simp only [List.map_cons, List.nodup_cons] at hn
    obtain ⟨st', e, s, hσ, hq⟩ := ih (assign pr pv.1 pv.2 st) hn.2
    refine ⟨st', ?_, (assign_shift pr _ _ _).trans s, ?_, ?_⟩
    · simp only [List.map_cons, setups, setup, runUpdate, List.foldl_cons, List.foldl_nil, e]
      congr 1
      rw [Prod.mk.injEq]
      refine ⟨?_, rfl⟩
      congr 1
      apply List.map_congr_left
      intro x hx
      rw [assign_σ, if_neg]
      rintro h
      exact hn.1 (h ▸ List.mem_map_of_mem (f := Prod.fst) hx)
    · rw [hσ]
      simp only [updated, List.map_cons, List.foldl_cons]
      congr 1
      funext q
      rw [assign_σ]; simp
    · intro q hq'
      simp only [List.map_cons, List.mem_cons, not_or] at hq'
      rw [hq q hq'.2, assign_σ, if_neg hq'.1]

theorem setback_one (pr : Prog P V M) (p : P) (v mem : V) (st : St P V M) (hst : st.σ p = v ∨ st.σ p = mem) :
    let st' := setback pr ⟨[p], v⟩ mem st
    Shift st st' ∧ ∀ q, st'.σ q = if q = p then mem else st.σ q := by
  unfold setback
  split
  · rename_i h
    simp only [runUpdate, List.foldl_cons, List.foldl_nil]
    exact ⟨assign_shift _ _ _ _, assign_σ _ _ _ _⟩
  · rename_i h
    simp only [ne_eq, Decidable.not_not] at h
    refine ⟨.refl _, fun q => ?_⟩
    by_cases hq : q = p
    · subst hq; rw [if_pos rfl]; rcases hst with h' | h'
      · rw [h', h]
      · exact h'
    · rw [if_neg hq]

theorem setbacks_one (pr : Prog P V M) : ∀ (pvs : List (P × V)) (mems : List V) (st : St P V M), (pvs.map Prod.fst).Nodup →
    mems.length = pvs.length → (∀ pv ∈ pvs, st.σ pv.1 = pv.2) →
    let st' := setbacks pr (pvs.map fun pv => ⟨[pv.1], pv.2⟩) mems st
    Shift st st' ∧ (∀ q, q ∉ pvs.map Prod.fst → st'.σ q = st.σ q) ∧
      ∀ (k : Nat) pv m, pvs[k]? = some pv → mems[k]? = some m → st'.σ pv.1 = m := by
  intro pvs
  induction pvs with
  | nil => intro mems st _ _ _; exact ⟨.refl _, fun _ _ => rfl, by simp⟩
  | cons pv pvs ih =>
    intro mems st hn hl hv
    simp only [List.map_cons, List.nodup_cons] at hn
    cases mems with
    | nil => simp at hl
    | cons m mems =>
      obtain ⟨s1, h1⟩ := setback_one pr pv.1 pv.2 m st (Or.inl (hv pv (by simp)))
      have hne : ∀ x ∈ pvs, x.1 ≠ pv.1 := fun x hx h => hn.1 (h ▸ List.mem_map_of_mem (f := Prod.fst) hx)
      obtain ⟨s2, h2, h3⟩ := ih mems (setback pr ⟨[pv.1], pv.2⟩ m st) hn.2 (by simpa using hl)
        (fun x hx => by rw [h1, if_neg (hne x hx)]; exact hv x (by simp [hx]))
      refine ⟨s1.trans s2, ?_, ?_⟩
      · intro q hq
        simp only [List.map_cons, List.mem_cons, not_or] at hq
        show (setbacks pr _ mems _).σ q = _
        rw [h2 q hq.2, h1, if_neg hq.1]
      · intro k x m' hk hm
        cases k with
        | zero =>
          simp only [List.getElem?_cons_zero, Option.some.injEq] at hk hm
          subst hk; subst hm
          show (setbacks pr _ mems _).σ _ = _
          rw [h2 _ hn.1, h1, if_pos rfl]
        | succ k =>
          simp only [List.getElem?_cons_succ] at hk hm
          exact h3 k x m' hk hm

/-- While the updates are in force their parameters have the given values. -/
theorem updated_mem (pvs : List (P × V)) (σ : P → V) (hn : (pvs.map Prod.fst).Nodup) :
    ∀ pv ∈ pvs, updated (pvs.map fun pv => (⟨[pv.1], pv.2⟩ : Upd P V)) σ pv.1 = pv.2 := by
  induction pvs generalizing σ with
  | nil => simp
  | cons x pvs ih =>
    intro pv hpv
    simp only [List.map_cons, List.nodup_cons] at hn
    simp only [updated, List.map_cons, List.foldl_cons]
    rcases List.mem_cons.mp hpv with rfl | hpv
    · have gen : ∀ (l : List (P × V)) (τ : P → V) (q : P), q ∉ l.map Prod.fst →
          (l.map fun pv => (⟨[pv.1], pv.2⟩ : Upd P V)).foldl (fun (σ : P → V) u => fun q => if q ∈ u.ps then u.value else σ q) τ q = τ q := by
        intro l
        induction l with
        | nil => intro τ q _; rfl
        | cons y l ihl =>
          intro τ q hq
          simp only [List.map_cons, List.mem_cons, not_or] at hq
          simp only [List.map_cons, List.foldl_cons]
          rw [ihl _ q hq.2]
          simp [hq.1]
      rw [gen pvs _ _ hn.1]
      simp
    · exact ih _ hn.2 pv hpv

end Verif.Cache
