import Verif.Cache.Lemmas
/-!
# `getUnitary` and `unitary` return the value computed from scratch
-/
namespace Verif.Cache
variable {P V M : Type} [DecidableEq P] [DecidableEq V]

/-- What a call computing `i` guarantees. -/
structure Post (pr : Prog P V M) (steps : Nat → List Ref) (val : Nat → M) (i : Nat) (st : St P V M) (r : Option M)
    (st' : St P V M) : Prop where
  ret : r = some (val i)
  same : Same st st'
  inv : Inv val st'
  keep : ∀ j, Ok val st j → Ok val st' j
  sub : ∀ j, Sub pr steps i j → Ok val st' j
  mat : st'.mat i = some (val i)

theorem Ok.of_mat {val : Nat → M} {st st' : St P V M} {j : Nat} (h : Ok val st j) (e : st'.mat j = st.mat j) : Ok val st' j := by
  unfold Ok; rw [e]; exact h

/-- Storing the right matrix. -/
theorem setMat_ok {val : Nat → M} (st : St P V M) (i : Nat) :
    (Inv val st → Inv val (setMat st i (some (val i)))) ∧ ∀ j, Ok val st j → Ok val (setMat st i (some (val i))) j := by
  have : ∀ j, Ok val st j → Ok val (setMat st i (some (val i))) j := by
    intro j h
    by_cases hj : j = i
    · subst hj; right; simp [setMat]
    · exact h.of_mat (by simp [setMat, hj])
  exact ⟨fun hi j hj => this j (hi j hj), this⟩

theorem Post.setMat {pr : Prog P V M} {steps : Nat → List Ref} {val : Nat → M} {i : Nat} {st : St P V M} {r : Option M}
    {st' : St P V M} (p : Post pr steps val i st r st') : Post pr steps val i st ((setMat st' i r).mat i) (setMat st' i r) := by
  have e := p.ret
  subst e
  obtain ⟨a, b⟩ := setMat_ok (val := val) st' i
  exact ⟨by simp [Cache.setMat], ⟨p.same.σ, p.same.ratio, p.same.steps⟩, a p.inv, fun j h => b j (p.keep j h),
    fun j h => b j (p.sub j h), by simp [Cache.setMat]⟩

theorem Post.before {pr : Prog P V M} {steps : Nat → List Ref} {val : Nat → M} {i : Nat} {st0 st : St P V M} {r : Option M}
    {st' : St P V M} (g : Grow st0 st) (p : Post pr steps val i st r st') : Post pr steps val i st0 r st' :=
  ⟨p.ret, g.same.trans p.same, p.inv, fun j h => p.keep j (h.of_mat (by rw [g.mat])), p.sub, p.mat⟩

section
variable {pr : Prog P V M} {steps : Nat → List Ref} {val : Nat → M} (T : Tame pr steps)
  {lim : Nat} {g : Nat → St P V M → Option (Option M × St P V M)}
  (hg : ∀ i st r st', st.steps = steps → FromScratch pr st val → Inv val st → g i st = some (r, st') →
    Post pr steps val i st r st')
include T hg

theorem unitaryOf_spec (i : Nat) (st : St P V M) (r : Option M) (st' : St P V M) (hs : st.steps = steps)
    (hf : FromScratch pr st val) (hi : Inv val st) (e : unitaryOf pr lim g i st = some (r, st')) :
    Post pr steps val i st r st' := by
  unfold unitaryOf at e
  split at e
  · simp at e
  rename_i b st1 e1
  obtain ⟨g1, f1⟩ := eff_spec pr steps lim _ _ _ _ hs e1
  have hs1 := g1.same.steps.trans hs
  have compute : ∀ m st2, g i st1 = some (m, st2) → Post pr steps val i st ((setMat st2 i m).mat i) (setMat st2 i m) :=
    fun m st2 e2 => ((hg i st1 m st2 hs1 (hf.same g1.same) (g1.inv hi) e2).setMat).before g1
  cases b with
  | true =>
    simp only [if_true, T.notFixed i, Bool.false_eq_true, if_false] at e
    split at e
    · simp at e
    rename_i m st2 e2
    simp only [Option.some.injEq, Prod.mk.injEq] at e
    obtain ⟨rfl, rfl⟩ := e
    exact compute m st2 e2
  | false =>
    obtain ⟨rfl, f1⟩ := f1 rfl
    simp only [Bool.false_eq_true, if_false] at e
    split at e
    · rename_i m hm
      simp only [Option.some.injEq, Prod.mk.injEq] at e
      obtain ⟨rfl, rfl⟩ := e
      have hv : m = val i := by
        rcases hi i (f1 i (.refl i)) with h | h
        · rw [hm] at h; simp at h
        · rw [hm] at h; simpa using h
      subst hv
      exact ⟨rfl, .refl _, hi, fun j h => h, fun j h => hi j (f1 j h.touch), hm⟩
    · split at e
      · simp at e
      rename_i m st2 e2
      simp only [Option.some.injEq, Prod.mk.injEq] at e
      obtain ⟨rfl, rfl⟩ := e
      exact compute m st2 e2

theorem getRef_spec (i : Nat) (r0 : Ref) (hr0 : r0 ∈ steps i) (st : St P V M) (r : Option M) (st' : St P V M)
    (hs : st.steps = steps) (hf : FromScratch pr st val) (hi : Inv val st) (e : getRef pr lim g r0 st = some (r, st')) :
    Post pr steps val r0.id st r st' := by
  cases r0 with
  | orig j => exact hg j st r st' hs hf hi e
  | copy j hc =>
    have : hc = false := by
      cases hc with
      | false => rfl
      | true => exact absurd hr0 (T.noHc i j)
    subst this
    unfold getRef at e
    dsimp only at e
    split at e
    · simp at e
    rename_i m st1 e1
    simp only [Bool.false_eq_true, if_false, Option.some.injEq, Prod.mk.injEq] at e
    obtain ⟨rfl, rfl⟩ := e
    have p := unitaryOf_spec T hg j st m st1 hs hf hi e1
    exact ⟨p.mat, p.same, p.inv, p.keep, p.sub, p.mat⟩

theorem createLoop_spec (i : Nat) : ∀ (rs : List Ref), (∀ r ∈ rs, r ∈ steps i) → ∀ (acc : M) (st : St P V M) (m : M)
    (st' : St P V M), st.steps = steps → FromScratch pr st val → Inv val st →
    createLoop pr lim g rs acc st = some (m, st') →
    m = rs.foldl (fun (acc : M) r => pr.alg.mul (val r.id) acc) acc ∧ Same st st' ∧ Inv val st' ∧
      (∀ j, Ok val st j → Ok val st' j) ∧ ∀ r ∈ rs, ∀ j, Sub pr steps r.id j → Ok val st' j := by
  intro rs
  induction rs with
  | nil =>
    intro _ acc st m st' _ _ hi e
    simp only [createLoop, Option.some.injEq, Prod.mk.injEq] at e
    obtain ⟨rfl, rfl⟩ := e
    exact ⟨rfl, .refl _, hi, fun _ h => h, by simp⟩
  | cons r rs ih =>
    intro hmem acc st m st' hs hf hi e
    unfold createLoop at e
    split at e
    · simp at e
    rename_i vals st1 e1
    have g1 := (puGet_spec pr steps lim _ _ _ _ hs e1).1
    have fal := puGet_false (val := val) pr steps lim _ _ _ _ hs hi e1
    have hs1 := g1.same.steps.trans hs
    split at e
    · rename_i u st2 e2
      have p := getRef_spec T hg i r (hmem r (by simp)) st1 (some u) st2 hs1 (hf.same g1.same) (g1.inv hi) e2
      obtain ⟨q1, q2, q3, q4, q5⟩ := puSet_spec (val := val) rs vals st2 p.inv fun k j hk hb => p.keep j (fal k j hk hb)
      have hsame : Same st (puSet rs vals st2) := (g1.same.trans p.same).trans q2
      obtain ⟨a1, a2, a3, a4, a5⟩ := ih (fun r hr => hmem r (by simp [hr])) _ _ m st' (hsame.steps.trans hs)
        (hf.same hsame) q1 e
      have hu : u = val r.id := by simpa using p.ret
      refine ⟨?_, hsame.trans a2, a3, ?_, ?_⟩
      · rw [a1, hu]; rfl
      · intro j hj
        apply a4
        exact (p.keep j (hj.of_mat (by rw [g1.mat]))).of_mat (by rw [q3])
      · intro r' hr' j hj
        rcases List.mem_cons.mp hr' with rfl | hr'
        · apply a4
          exact (p.sub j hj).of_mat (by rw [q3])
        · exact a5 r' hr' j hj
    · simp at e

end

theorem not_leaf {b : Bool} (h : ¬ b = true) : b = false := by cases b <;> simp_all

/-- `_defGetUnitary` without updates in force, for a `qProtocol`. -/
theorem defGet_comp_spec {pr : Prog P V M} {steps : Nat → List Ref} {val : Nat → M} (T : Tame pr steps) {lim : Nat}
    {g : Nat → St P V M → Option (Option M × St P V M)}
    (hg : ∀ i st r st', st.steps = steps → FromScratch pr st val → Inv val st → g i st = some (r, st') →
      Post pr steps val i st r st')
    (i : Nat) (hl : pr.leaf i = false) (st : St P V M) (r : Option M) (st' : St P V M) (hs : st.steps = steps)
    (hf : FromScratch pr st val) (hi : Inv val st) (e : defGet pr lim g i st = some (r, st')) :
    Post pr steps val i st r st' := by
  unfold defGet at e
  split at e
  · simp at e
  rename_i b st1 e1
  obtain ⟨g1, f1⟩ := eff_spec pr steps lim _ _ _ _ hs e1
  have hs1 := g1.same.steps.trans hs
  split at e
  · split at e
    · simp at e
    rename_i u st2 e2
    simp only [Option.some.injEq, Prod.mk.injEq, pr.alg.mul_one] at e
    obtain ⟨rfl, rfl⟩ := e
    unfold create at e2
    simp only [hl, Bool.false_eq_true, if_false, hs1] at e2
    obtain ⟨a1, a2, a3, a4, a5⟩ := createLoop_spec T hg i (steps i) (fun _ h => h) _ _ _ _ hs1 (hf.same g1.same) (g1.inv hi) e2
    have hu : u = val i := by rw [a1, hf.comp i hl, hs]
    subst hu
    obtain ⟨m1, m2⟩ := setMat_ok (val := val) st2 i
    refine ⟨by simp [setMat], ?_, m1 a3, fun j h => m2 j (a4 j (h.of_mat (by rw [g1.mat]))), ?_, by simp [setMat]⟩
    · have := g1.same.trans a2
      exact ⟨this.σ, this.ratio, this.steps⟩
    · intro j hj
      cases hj with
      | refl => right; simp [setMat]
      | head _ hk hr => exact m2 j (a5 _ (mem_origs.mp hk) j hr)
  · rename_i hc
    simp only [Option.some.injEq, Prod.mk.injEq] at e
    obtain ⟨rfl, rfl⟩ := e
    simp only [T.notFixed i, Bool.not_false, Bool.and_true, Bool.or_eq_true, Bool.and_eq_true, not_or, not_and] at hc
    have hb : b = false := not_leaf hc.1
    subst hb
    obtain ⟨rfl, f1⟩ := f1 rfl
    have hm : st1.mat i = some (val i) := by
      rcases hi i (f1 i (.refl i)) with h | h
      · have := hc.2 (by rfl); rw [h] at this; simp at this
      · exact h
    exact ⟨hm, .refl _, hi, fun _ h => h, fun j h => hi j (f1 j h.touch), hm⟩

/-- The main induction: `getUnitary` returns the value computed from scratch, keeps the parameters and the invariant. -/
theorem getU_spec {pr : Prog P V M} {steps : Nat → List Ref} {val : Nat → M} (T : Tame pr steps) :
    ∀ (lim i : Nat) (st : St P V M) (r : Option M) (st' : St P V M), st.steps = steps → FromScratch pr st val → Inv val st →
      getU pr lim i st = some (r, st') → Post pr steps val i st r st' := by
  intro lim
  induction lim with
  | zero => intro i st r st' _ _ _ e; simp [getU] at e
  | succ lim ih =>
    intro i st r st' hs hf hi e
    unfold getU at e
    by_cases hl : pr.leaf i = true
    · -- a leaf
      obtain ⟨pvs, hpv, hn⟩ := T.updOne i
      obtain ⟨st1, e1, s1, σ1, q1⟩ := setups_one pr pvs st hn
      rw [hpv, e1] at e
      dsimp only at e
      split at e
      · simp at e
      rename_i m st2 e2
      split at e
      · simp at e
      rename_i st3 e3
      simp only [Option.some.injEq, Prod.mk.injEq] at e
      obtain ⟨rfl, rfl⟩ := e
      -- `defGet`
      have d : m = some (val i) ∧ st2.σ = st1.σ ∧ st2.ratio = st1.ratio ∧ st2.steps = st1.steps ∧ st2.flag = st1.flag ∧
          (∀ j, j ≠ i → st2.mat j = st1.mat j) := by
        unfold defGet at e2
        split at e2
        · simp at e2
        rename_i b st1' e1'
        have : b = st1.flag i ∧ st1' = st1 := by
          cases lim with
          | zero => simp [eff] at e1'
          | succ l =>
            unfold eff at e1'
            simp only [hl, if_true, Option.some.injEq, Prod.mk.injEq] at e1'
            exact ⟨e1'.1.symm, e1'.2.symm⟩
        obtain ⟨rfl, rfl⟩ := this
        split at e2
        · unfold create at e2
          simp only [hl, if_true, Option.some.injEq, Prod.mk.injEq, pr.alg.mul_one] at e2
          obtain ⟨rfl, rfl⟩ := e2
          refine ⟨?_, rfl, rfl, rfl, rfl, fun j hj => by simp [setMat, hj]⟩
          simp only [setMat, if_true]
          rw [hf.leaf i hl, σ1, hpv, s1.ratio]
        · rename_i hc
          simp only [Option.some.injEq, Prod.mk.injEq] at e2
          obtain ⟨rfl, rfl⟩ := e2
          refine ⟨?_, rfl, rfl, rfl, rfl, fun _ _ => rfl⟩
          simp only [T.notFixed i, Bool.not_false, Bool.and_true, Bool.or_eq_true, Bool.and_eq_true, not_or, not_and] at hc
          have hb : st1'.flag i = false := not_leaf hc.1
          have hb0 : st.flag i = false := by
            cases hh : st.flag i with
            | false => rfl
            | true => rw [s1.flag i hh] at hb; simp at hb
          rw [s1.mat]
          rcases hi i hb0 with h | h
          · have := hc.2 (by rw [hb]; rfl); rw [s1.mat, h] at this; simp at this
          · exact h
      obtain ⟨rfl, d1, d2, d3, d4, d5⟩ := d
      -- set back
      have hv : ∀ pv ∈ pvs, (setMat st2 i (some (val i))).σ pv.1 = pv.2 := by
        intro pv hp
        show st2.σ pv.1 = pv.2
        rw [d1, σ1]
        exact updated_mem pvs st.σ hn pv hp
      obtain ⟨b1, b2, b3⟩ := setbacks_one pr pvs (pvs.map fun pv => st.σ pv.1) (setMat st2 i (some (val i))) hn (by simp) hv
      have bσ : (setbacks pr (pvs.map fun pv => ⟨[pv.1], pv.2⟩) (pvs.map fun pv => st.σ pv.1) (setMat st2 i (some (val i)))).σ = st.σ := by
        funext q
        by_cases hq : q ∈ pvs.map Prod.fst
        · obtain ⟨pv, hp, rfl⟩ := List.mem_map.mp hq
          obtain ⟨k, hk⟩ := List.mem_iff_getElem?.mp hp
          exact b3 k pv (st.σ pv.1) hk (by rw [List.getElem?_map, hk]; rfl)
        · rw [b2 q hq]
          show st2.σ q = st.σ q
          rw [d1, q1 q hq]
      obtain ⟨c1, c2, c3, c4, c5, c6⟩ := clear_spec pr steps lim i _ _ (b1.steps.trans (d3.trans (s1.steps.trans hs))) e3
      have same : Same st st3 := ⟨c1.σ.trans bσ, c1.ratio.trans (b1.ratio.trans (d2.trans s1.ratio)),
        c1.steps.trans (b1.steps.trans (d3.trans s1.steps))⟩
      have hmat : ∀ j, st3.mat j = if j = i then some (val i) else st.mat j := by
        intro j
        rw [c2, b1.mat]
        by_cases hj : j = i
        · subst hj; simp [setMat]
        · simp only [setMat, hj, if_false]; rw [d5 j hj, s1.mat]
      have keep : ∀ j, Ok val st j → Ok val st3 j := by
        intro j hj
        by_cases hji : j = i
        · subst hji; right; rw [hmat, if_pos rfl]
        · exact hj.of_mat (by rw [hmat, if_neg hji])
      have hfi : st3.mat i = some (val i) := by rw [hmat, if_pos rfl]
      refine ⟨hfi, same, ?_, keep, ?_, hfi⟩
      · intro j hj
        by_cases hji : j = i
        · subst hji; right; exact hfi
        · apply keep
          apply hi
          rcases c5 j with h | ⟨h, -⟩
          · rw [h] at hj
            cases hh : st.flag j with
            | false => rfl
            | true =>
              have := b1.flag j (by show st2.flag j = true; rw [d4]; exact s1.flag j hh)
              rw [this] at hj; simp at hj
          · cases h with
            | refl => exact absurd rfl hji
            | head h1 => rw [hl] at h1; simp at h1
      · intro j hj
        cases hj with
        | refl => right; exact hfi
        | head h1 => rw [hl] at h1; simp at h1
    · -- a protocol with steps
      have hl := not_leaf hl
      rw [T.updLeaf i hl] at e
      simp only [setups, setbacks] at e
      split at e
      · simp at e
      rename_i m st2 e2
      split at e
      · simp at e
      rename_i st3 e3
      simp only [Option.some.injEq, Prod.mk.injEq] at e
      obtain ⟨rfl, rfl⟩ := e
      have p := (defGet_comp_spec T (fun i st r st' => ih i st r st') i hl st m st2 hs hf hi e2).setMat
      obtain ⟨c1, c2, c3, c4, c5, c6⟩ := clear_spec pr steps lim i _ _ (p.same.steps.trans hs) e3
      have hok : ∀ j, Ok val (setMat st2 i m) j → Ok val st3 j := fun j h => h.of_mat (by rw [c2])
      refine ⟨by rw [c2]; exact p.mat, p.same.trans c1, ?_, fun j h => hok j (p.keep j h), fun j h => hok j (p.sub j h),
        by rw [c2]; exact p.mat⟩
      intro j hj
      rcases c5 j with h | ⟨h, -⟩
      · rw [h] at hj; exact hok j (p.inv j hj)
      · exact hok j (p.sub j h)

end Verif.Cache
