import Verif.Whole.Inner

/-!
# C83: the loop over the values, and the caches
-/
namespace Verif.Whole
open Verif.Sweep Verif.Cache

variable {P V M : Type} [DecidableEq P] [DecidableEq V]

/-- One protocol, `i₀`, has time-dependent sweeps, which have been prepared; it is not a step of another protocol and has no updates.  The
restrictions on the protocols are those of C14, those on the sweeps those of C82. -/
structure NiceI (o : IProg P V M) (steps : Nat → List Ref) (rank : Nat → Nat) (i₀ : Nat) : Prop where
  tame : Tame o.pr steps
  covers : Covers o.pr steps rank
  only : ∀ j, j ≠ i₀ → o.td j = []
  top : ∀ j, ∀ r ∈ steps j, r.id ≠ i₀
  updates : o.pr.upds i₀ = []
  td : TdOk (o.td i₀)
  targets : (o.targets i₀).length = (o.td i₀).length
  few : (axes (o.td i₀)).prod ≤ 2 ^ 53
  prepared : o.ts i₀ = Sweep.prepare {} (o.td i₀)

/-- The values of repetition `k`. -/
def inVals (o : IProg P V M) (fd : FloatDiv) (i₀ k : Nat) : List V := (innerValues o fd i₀ k).getD []

/-- The unitary of `i₀` at the values of repetition `k`, made from scratch. -/
noncomputable def inMat (o : IProg P V M) (fd : FloatDiv) (ratio : Nat → V) (steps : Nat → List Ref) (rank : Nat → Nat) (i₀ : Nat)
    (σ : P → V) (k : Nat) : M :=
  scratchF o.pr (init (overwrite (o.targets i₀) (inVals o fd i₀ k) σ) ratio steps : St P V M) (rank i₀ + 1) i₀

/-- Their product. -/
noncomputable def inProd (o : IProg P V M) (fd : FloatDiv) (ratio : Nat → V) (steps : Nat → List Ref) (rank : Nat → Nat) (i₀ : Nat)
    (σ : P → V) : M :=
  (List.range (axes (o.td i₀)).prod).foldl (fun (acc : M) k => o.pr.alg.mul (inMat o fd ratio steps rank i₀ σ k) acc) o.pr.alg.one

/-- The program with `i₀` replaced by a leaf. -/
def cut (pr : Prog P V M) (i₀ : Nat) (W : (P → V) → M) : Prog P V M :=
  { pr with leaf := fun j => if j = i₀ then true else pr.leaf j, U := fun j σ r => if j = i₀ then W σ else pr.U j σ r }

omit [DecidableEq P] [DecidableEq V] in
theorem cut_agree (pr : Prog P V M) (i₀ : Nat) (W : (P → V) → M) : Agree i₀ (cut pr i₀ W) pr :=
  ⟨rfl, rfl, rfl, rfl, fun j hj => by simp [cut, hj], fun j hj => by simp [cut, hj]⟩

omit [DecidableEq V] in
theorem cut_scratch {pr : Prog P V M} {i₀ : Nat} {W : (P → V) → M} {steps : Nat → List Ref} (top : ∀ j, ∀ r ∈ steps j, r.id ≠ i₀)
    (hu : pr.upds i₀ = []) {st : St P V M} (hs : st.steps = steps) {val : Nat → M} (h : FromScratch pr st val) :
    FromScratch (cut pr i₀ W) st (fun j => if j = i₀ then W st.σ else val j) := by
  refine ⟨fun j hl => ?_, fun j hl => ?_⟩
  · by_cases hj : j = i₀
    · subst hj
      simp [cut, hu, updated]
    · have hl' : pr.leaf j = true := by simpa [cut, hj] using hl
      simp only [hj, if_false]
      rw [h.leaf j hl']
      simp [cut, hj]
  · have hj : j ≠ i₀ := by rintro rfl; simp [cut] at hl
    have hl' : pr.leaf j = false := by simpa [cut, hj] using hl
    simp only [hj, if_false]
    rw [h.comp j hl']
    apply foldl_congr_mem
    intro r hr acc
    rw [if_neg (top j r (hs ▸ hr))]
    rfl

/-- The getter answers yes only for a protocol that is then marked. -/
theorem eff_true (pr : Prog P V M) (lim i : Nat) (st st' : St P V M) (e : eff pr lim i st = some (true, st')) : st'.flag i = true := by
  cases lim with
  | zero => simp [eff] at e
  | succ lim =>
    unfold eff at e
    split at e
    · simp only [Option.some.injEq, Prod.mk.injEq] at e
      rw [← e.2, e.1]
    · split at e
      · simp at e
      · simp only [Option.some.injEq, Prod.mk.injEq, true_and] at e
        rw [← e]
        simp [setFlag]
      · simp only [Option.some.injEq, Prod.mk.injEq] at e
        rw [← e.2, e.1]

section
variable {pr : Prog P V M} {steps : Nat → List Ref} {rank : Nat → Nat} (T : Tame pr steps) (C : Covers pr steps rank)
include T C

theorem nice0 : Nice (S := Unit) ⟨pr, 0, [], [], [], fun _ s => s, fun _ _ => (), fun _ => 0⟩ steps rank :=
  ⟨T, C, by simp, by simp, rfl⟩

/-- The product of the steps is made. -/
theorem createLoop_total {val : Nat → M} (lim i : Nat) : ∀ (rs : List Ref), (∀ r ∈ rs, r ∈ steps i) → (∀ r ∈ rs, rank r.id + 1 < lim) →
    ∀ (acc : M) (st : St P V M), st.steps = steps → FromScratch pr st val → Inv val st →
      ∃ x, createLoop pr lim (getU pr lim) rs acc st = some x := by
  have hg := fun i st r st' a b c d => getU_spec (val := val) T lim i st r st' a b c d
  intro rs
  induction rs with
  | nil => intro _ _ acc st _ _ _; exact ⟨_, rfl⟩
  | cons r rs ihr =>
    intro hmem hr acc st hs hf hi
    obtain ⟨⟨vals, st1⟩, e1⟩ := puGet_total C.rank lim rs (fun r h => by have := hr r (by simp [h]); omega) st hs
    have g1 := (puGet_spec pr steps lim _ _ _ _ hs e1).1
    have hs1 := g1.same.steps.trans hs
    have hf1 := hf.same g1.same
    have hi1 := g1.inv hi
    obtain ⟨⟨m, st2⟩, e2⟩ : ∃ x, getRef pr lim (getU pr lim) r st1 = some x := by
      cases r with
      | orig j => exact getU_total C.rank T lim j st1 hs1 hf1 hi1 (hr (.orig j) (by simp))
      | copy j hc =>
        have : hc = false := by
          cases hc with
          | false => rfl
          | true => exact absurd (hmem _ (by simp)) (T.noHc i j)
        subst this
        have hj : rank j + 1 < lim := hr (.copy j false) (by simp)
        obtain ⟨⟨m, st2⟩, e2⟩ : ∃ x, unitaryOf pr lim (getU pr lim) j st1 = some x := by
          obtain ⟨⟨b, st2⟩, e⟩ := eff_total C.rank lim j st1 hs1 (by omega)
          have g2 := (eff_spec pr steps lim _ _ _ _ hs1 e).1
          obtain ⟨⟨m, st3⟩, e3⟩ := getU_total C.rank T lim j st2 (g2.same.steps.trans hs1) (hf1.same g2.same) (g2.inv hi1) hj
          unfold unitaryOf
          rw [e]
          dsimp only
          rw [e3, T.notFixed j]
          cases b with
          | true => exact ⟨_, rfl⟩
          | false => cases hm : st2.mat j <;> exact ⟨_, rfl⟩
        exact ⟨(st2.mat j, st2), by unfold getRef; dsimp only; rw [e2]; rfl⟩
    have p := getRef_spec T hg i r (hmem r (by simp)) st1 m st2 hs1 hf1 hi1 e2
    have fal := puGet_false (val := val) pr steps lim _ _ _ _ hs hi e1
    obtain ⟨q1, q2, -, -, -⟩ := puSet_spec (val := val) rs vals st2 p.inv fun k j hk hb => p.keep j (fal k j hk hb)
    have hsame : Same st (puSet rs vals st2) := (g1.same.trans p.same).trans q2
    obtain ⟨x, ex⟩ := ihr (fun r h => hmem r (by simp [h])) (fun r h => hr r (by simp [h])) (pr.alg.mul (val r.id) acc)
      (puSet rs vals st2) (hsame.steps.trans hs) (hf.same hsame) q1
    refine ⟨x, ?_⟩
    unfold createLoop
    rw [e1]
    dsimp only
    rw [e2, p.ret]
    exact ex

/-- `_createUnitary` makes the unitary from scratch and leaves the caches right, those of the steps in particular. -/
theorem create_good (lim i : Nat) (hi : rank i < lim) (hu : pr.upds i = []) (st : St P V M) (hg : Good pr steps st) {val : Nat → M}
    (hv : FromScratch pr st val) :
    ∃ st', create pr lim (getU pr lim) i st = some (val i, st') ∧ Good pr steps st' ∧ st'.σ = st.σ ∧ st'.ratio = st.ratio ∧
      ∀ j, Sub pr steps i j → j ≠ i → Ok val st' j := by
  obtain ⟨hs, hinv⟩ := hg
  unfold create
  by_cases hl : pr.leaf i = true
  · rw [if_pos hl]
    refine ⟨{ st with cnt := fun j => if j = i then st.cnt i + 1 else st.cnt j }, ?_, ⟨hs, fun val' hv' => hinv val' ⟨hv'.leaf, hv'.comp⟩⟩, rfl, rfl, fun j hj hji => ?_⟩
    · rw [hv.leaf i hl, hu]
      rfl
    · cases hj with
      | refl => exact absurd rfl hji
      | head h1 => rw [hl] at h1; simp at h1
  · rw [if_neg hl]
    have hl := not_leaf hl
    obtain ⟨⟨m, st'⟩, e⟩ := createLoop_total T C (val := val) lim i (steps i) (fun _ h => h)
      (fun r hr => by have := C.rank i hl r hr; omega) pr.alg.one st hs hv (hinv val hv)
    obtain ⟨a1, a2, a3, a4, a5⟩ := createLoop_spec T (fun i st r st' a b c d => getU_spec (val := val) T lim i st r st' a b c d) i (steps i)
      (fun _ h => h) _ _ _ _ hs hv (hinv val hv) e
    have hs' := a2.steps.trans hs
    refine ⟨st', ?_, ⟨hs', fun val' hv' => ?_⟩, a2.σ, a2.ratio, fun j hj hji => ?_⟩
    · rw [hs, e, hv.comp i hl, hs, a1]
    · have hv0 : FromScratch pr st val' := hv'.same ⟨a2.σ.symm, a2.ratio.symm, a2.steps.symm⟩
      have : val' = val := funext fun j =>
        fromScratch_unique (st := st) (fun i hl r hr => C.rank i hl r (hs ▸ hr)) hv hv0 (rank j + 1) j (by omega)
      rw [this]
      exact a3
    · cases hj with
      | refl => exact absurd rfl hji
      | head _ hk hr => exact a5 _ (mem_origs.mp hk) j hr

end

section
variable {o : IProg P V M} {steps : Nat → List Ref} {rank : Nat → Nat} {i₀ : Nat} (h : NiceI o steps rank i₀) (fd : FloatDiv)
include h

omit [DecidableEq P] [DecidableEq V] in
theorem inVals_ok {k : Nat} (hk : k ≤ 2 ^ 53) : innerValues o fd i₀ k = some (inVals o fd i₀ k) ∧
    stepValues (o.td i₀) k (inVals o fd i₀ k) ∧ (inVals o fd i₀ k).length = (o.td i₀).length := by
  obtain ⟨vals, h1, h2⟩ := td_point fd h.td hk
  obtain ⟨s, ss, hss, -⟩ := h.td.first
  have hi : innerValues o fd i₀ k = some vals := by
    rw [sweepPoint, prepare_inds _ _ (by simp [hss]), if_pos (by simp [hss, axes])] at h1
    rw [innerValues, if_pos (by simp [IProg.has, hss]), h.prepared, prepare_inds _ _ (by simp [hss])]
    exact h1
  have : inVals o fd i₀ k = vals := by rw [inVals, hi]; rfl
  rw [this]
  refine ⟨hi, h2, ?_⟩
  obtain ⟨t, -, hd⟩ := h2
  exact hd.1

/-- The product depends only on the attributes that are not time-dependent. -/
theorem inProd_off (ratio : Nat → V) (σ τ : P → V) (e : ∀ q, (∀ t ∈ o.targets i₀, q ∉ t) → σ q = τ q) :
    inProd o fd ratio steps rank i₀ σ = inProd o fd ratio steps rank i₀ τ := by
  unfold inProd
  apply foldl_congr_mem
  intro k hk acc
  have hk' : k ≤ 2 ^ 53 := le_trans (le_of_lt (List.mem_range.1 hk)) h.few
  unfold inMat
  rw [overwrite_congr _ _ σ τ (by rw [(inVals_ok h fd hk').2.2, h.targets]) e]

/-- The loop over the values. -/
theorem innerLoop_good (lim : Nat) (hi : rank i₀ < lim) (ratio : Nat → V) (σ : P → V) : ∀ (n k : Nat) (acc : M) (st : St P V M),
    k + n ≤ 2 ^ 53 → Good o.pr steps st → st.ratio = ratio → (∀ q, (∀ t ∈ o.targets i₀, q ∉ t) → st.σ q = σ q) →
    ∃ st', innerLoop o fd lim (getUI o fd lim) i₀ n k acc st =
        some ((List.range' k n).foldl (fun (acc : M) m => o.pr.alg.mul (inMat o fd ratio steps rank i₀ σ m) acc) acc, st') ∧
      Good o.pr steps st' ∧ st'.ratio = ratio ∧ (∀ q, (∀ t ∈ o.targets i₀, q ∉ t) → st'.σ q = σ q) ∧
      (0 < n → st'.σ = overwrite (o.targets i₀) (inVals o fd i₀ (k + n - 1)) σ ∧
        ∀ val, FromScratch o.pr st' val → ∀ j, Sub o.pr steps i₀ j → j ≠ i₀ → Ok val st' j)
  | 0, k, acc, st, _, hg, hr, hσ => ⟨st, rfl, hg, hr, hσ, by simp⟩
  | n + 1, k, acc, st, hk, hg, hr, hσ => by
    obtain ⟨v1, -, v3⟩ := inVals_ok h fd (k := k) (by omega)
    obtain ⟨g1, r1, s1⟩ := sweepAssign_good (nice0 h.tame h.covers) (o.targets i₀) (inVals o fd i₀ k) st hg
    have ho : overwrite (o.targets i₀) (inVals o fd i₀ k) st.σ = overwrite (o.targets i₀) (inVals o fd i₀ k) σ :=
      overwrite_congr _ _ _ _ (by rw [v3, h.targets]) hσ
    set st1 := sweepAssign o.pr (o.targets i₀) (inVals o fd i₀ k) st with hst1
    obtain ⟨val, hval⟩ := fromScratch_exists (pr := o.pr) (st := st1) (fun i hl r hr => h.covers.rank i hl r (g1.1 ▸ hr))
    have hm : val i₀ = inMat o fd ratio steps rank i₀ σ k := by
      have h2 : FromScratch o.pr st1 fun i => scratchF o.pr (init (overwrite (o.targets i₀) (inVals o fd i₀ k) σ) ratio steps : St P V M)
          (rank i + 1) i :=
        fromScratch_congr (st := (init (overwrite (o.targets i₀) (inVals o fd i₀ k) σ) ratio steps : St P V M))
          (scratchF_fromScratch (rank := rank) (fun i hl r hr => h.covers.rank i hl r hr)) (s1.trans ho) (r1.trans hr) g1.1
      exact fromScratch_unique (st := st1) (fun i hl r hr => h.covers.rank i hl r (g1.1 ▸ hr)) h2 hval (rank i₀ + 1) i₀ (by omega)
    obtain ⟨st2, e2, g2, s2, r2, k2⟩ := create_good h.tame h.covers lim i₀ hi h.updates st1 g1 hval
    have e2' : create o.pr lim (getUI o fd lim) i₀ st1 = some (val i₀, st2) := by
      rw [← e2]
      have A : Agree i₀ o.pr o.pr := ⟨rfl, rfl, rfl, rfl, fun _ _ => rfl, fun _ _ => rfl⟩
      unfold create
      rw [createLoop_agree A h.top (fun j st hj hs => getUI_agree fd h.only h.top lim j st hj hs)
        (fun i st r st' a b => getU_keep lim i st r st' a b) i₀ _ (fun r hr => g1.1 ▸ hr) _ st1 g1.1]
    have hσ2 : ∀ q, (∀ t ∈ o.targets i₀, q ∉ t) → st2.σ q = σ q := fun q hq => by
      rw [s2, s1, overwrite_off _ _ _ _ hq, hσ q hq]
    obtain ⟨st3, e3, g3, r3, s3, k3⟩ := innerLoop_good lim hi ratio σ n (k + 1) (o.pr.alg.mul (inMat o fd ratio steps rank i₀ σ k) acc) st2
      (by omega) g2 (r2.trans (r1.trans hr)) hσ2
    refine ⟨st3, ?_, g3, r3, s3, fun _ => ?_⟩
    · simp only [innerLoop, v1, ← hst1, e2', hm, e3]
      rw [List.range'_succ, List.foldl_cons]
    · rcases Nat.eq_zero_or_pos n with rfl | hn
      · simp only [innerLoop, Option.some.injEq, Prod.mk.injEq] at e3
        obtain ⟨-, rfl⟩ := e3
        refine ⟨by rw [s2, s1, ho]; rfl, fun val' hv' j hj hji => ?_⟩
        have : val' = val := funext fun j =>
          fromScratch_unique (st := st1) (fun i hl r hr => h.covers.rank i hl r (g1.1 ▸ hr)) hval
            (fromScratch_congr hv' s2.symm r2.symm (g1.1.trans g2.1.symm)) (rank j + 1) j (by omega)
        rw [this]
        exact k2 j hj hji
      · obtain ⟨k4, k5⟩ := k3 hn
        refine ⟨?_, k5⟩
        rw [k4]
        congr 2
        omega

/-- The value of the protocols when `i₀` is a leaf that gives the product. -/
noncomputable def inCut (o : IProg P V M) (fd : FloatDiv) (ratio : Nat → V) (steps : Nat → List Ref) (rank : Nat → Nat) (i₀ : Nat) : Prog P V M :=
  cut o.pr i₀ (inProd o fd ratio steps rank i₀)

theorem good_of_cut {ratio : Nat → V} {st : St P V M} (hg : Good (inCut o fd ratio steps rank i₀) steps st)
    (hm : st.flag i₀ = true ∨ st.mat i₀ = none) : Good o.pr steps st := by
  refine ⟨hg.1, fun val hv j hj => ?_⟩
  by_cases e : j = i₀
  · subst e
    rcases hm with hm | hm
    · rw [hm] at hj; simp at hj
    · exact Or.inl hm
  · have := hg.2 _ (cut_scratch h.top h.updates hg.1 hv) j hj
    simpa [Ok, e] using this

theorem cut_rank (ratio : Nat → V) : ∀ i, (inCut o fd ratio steps rank i₀).leaf i = false → ∀ r ∈ steps i, rank r.id < rank i := by
  intro i hl r hr
  refine h.covers.rank i ?_ r hr
  by_cases e : i = i₀
  · simp [inCut, cut, e] at hl
  · simpa [inCut, cut, e] using hl

/-- To have right caches it suffices to have them for one choice of values. -/
theorem good_cut {ratio : Nat → V} {st : St P V M} (hs : st.steps = steps) {val : Nat → M} (hv : FromScratch o.pr st val)
    (hi : st.flag i₀ = false → Ok (fun _ => inProd o fd ratio steps rank i₀ st.σ) st i₀)
    (hj : ∀ j, j ≠ i₀ → st.flag j = false → Ok val st j) : Good (inCut o fd ratio steps rank i₀) steps st := by
  refine ⟨hs, fun val' hv' j hf => ?_⟩
  have hv2 := cut_scratch (W := inProd o fd ratio steps rank i₀) h.top h.updates hs hv
  have e := fromScratch_unique (st := st) (fun i hl r hr => cut_rank h fd ratio i hl r (hs ▸ hr)) hv2 hv' (rank j + 1) j (by omega)
  unfold Ok
  rw [e]
  by_cases hji : j = i₀
  · subst hji
    simpa [Ok] using hi hf
  · simpa [Ok, hji] using hj j hji hf

theorem grow_good {pr : Prog P V M} {st st' : St P V M} (g : Grow st st') (hg : Good pr steps st) : Good pr steps st' :=
  ⟨g.same.steps.trans hg.1, fun val hv => g.inv (hg.2 val (hv.same ⟨g.same.σ.symm, g.same.ratio.symm, g.same.steps.symm⟩))⟩

/-- What a call that gives the unitary of `i₀` does. -/
structure PostI (o : IProg P V M) (fd : FloatDiv) (ratio : Nat → V) (steps : Nat → List Ref) (rank : Nat → Nat) (i₀ : Nat) (st st' : St P V M) :
    Prop where
  good : Good (inCut o fd ratio steps rank i₀) steps st'
  rat : st'.ratio = ratio
  σ : st'.σ = st.σ ∨ st'.σ = overwrite (o.targets i₀) (inVals o fd i₀ ((axes (o.td i₀)).prod - 1)) st.σ
  prod : inProd o fd ratio steps rank i₀ st'.σ = inProd o fd ratio steps rank i₀ st.σ
  mat : st'.mat i₀ = some (inProd o fd ratio steps rank i₀ st.σ)
  marked : st.flag i₀ = true → st'.σ = overwrite (o.targets i₀) (inVals o fd i₀ ((axes (o.td i₀)).prod - 1)) st.σ

theorem getUI_good (lim : Nat) (hi : rank i₀ + 1 < lim) (ratio : Nat → V) (st : St P V M) (hg : Good (inCut o fd ratio steps rank i₀) steps st)
    (hr : st.ratio = ratio) :
    ∃ st', getUI o fd lim i₀ st = some (some (inProd o fd ratio steps rank i₀ st.σ), st') ∧ PostI o fd ratio steps rank i₀ st st' := by
  obtain ⟨l, rfl⟩ : ∃ l, lim = l + 1 := ⟨lim - 1, by omega⟩
  have hl : rank i₀ < l := by omega
  set W := inProd o fd ratio steps rank i₀ with hW
  have hs := hg.1
  unfold getUI
  rw [h.updates]
  simp only [setups, setbacks]
  obtain ⟨⟨b, st1⟩, e1⟩ := eff_total h.covers.rank l i₀ st hs hl
  obtain ⟨g1, f1⟩ := eff_spec o.pr steps l _ _ _ _ hs e1
  have hs1 := g1.same.steps.trans hs
  have hg1 := grow_good h g1 hg
  unfold defGetI
  rw [e1]
  simp only [h.tame.notFixed i₀, Bool.not_false, Bool.and_true]
  by_cases hc : (b || (!b && (st1.mat i₀).isNone)) = true
  · rw [if_pos hc]
    have hm : st1.flag i₀ = true ∨ st1.mat i₀ = none := by
      cases b with
      | true => exact Or.inl (eff_true o.pr l i₀ st st1 e1)
      | false => right; simpa using hc
    have hgo := good_of_cut h fd hg1 hm
    obtain ⟨s, ss, hss, -⟩ := h.td.first
    have hN : (if o.has i₀ then (o.ts i₀).indMultip else 1) = (axes (o.td i₀)).prod := by
      rw [if_pos (by simp [IProg.has, hss]), h.prepared, prepare_multip _ _ (by simp [hss])]
    have hpos : 0 < (axes (o.td i₀)).prod := Nat.pos_of_ne_zero fun h0 => by
      have := List.prod_eq_zero_iff.1 h0
      exact absurd (h.td.pos 0 this) (by simp)
    obtain ⟨st2, e2, g2, r2, s2, k2⟩ := innerLoop_good h fd l hl ratio st.σ (axes (o.td i₀)).prod 0 o.pr.alg.one st1
      (by have := h.few; omega) hgo (g1.same.ratio.trans hr) (fun q _ => by rw [g1.same.σ])
    obtain ⟨k3, k4⟩ := k2 hpos
    rw [hN, e2]
    have hprod : (List.range' 0 (axes (o.td i₀)).prod).foldl (fun (acc : M) m => o.pr.alg.mul (inMat o fd ratio steps rank i₀ st.σ m) acc)
        o.pr.alg.one = W st.σ := by
      rw [hW, inProd, List.range_eq_range']
    rw [hprod]
    have hW2 : W st2.σ = W st.σ := inProd_off h fd ratio _ _ s2
    dsimp only
    have hset : (setMat st2 i₀ (some (W st.σ))).mat i₀ = some (W st.σ) := by simp [setMat]
    rw [hset]
    obtain ⟨st3, e3⟩ := clear_total h.covers.rank l i₀ (setMat (setMat st2 i₀ (some (W st.σ))) i₀ (some (W st.σ))) g2.1 hl
    obtain ⟨c1, c2, -, -, c5, -⟩ := clear_spec o.pr steps l i₀ _ _ (by exact g2.1) e3
    have hmat : ∀ j, st3.mat j = if j = i₀ then some (W st.σ) else st2.mat j := by
      intro j
      rw [c2]
      by_cases hj : j = i₀ <;> simp [setMat, hj]
    have hσ3 : st3.σ = st2.σ := c1.σ
    rw [e3]
    refine ⟨st3, by simp [hmat], ?_, c1.ratio.trans r2, Or.inr (by rw [hσ3, k3, Nat.zero_add]), by rw [hσ3]; exact hW2, by simp [hmat, hW],
      fun _ => by rw [hσ3, k3, Nat.zero_add]⟩
    obtain ⟨val, hv⟩ := fromScratch_exists (pr := o.pr) (st := st2) (fun i hl r hr => h.covers.rank i hl r (g2.1 ▸ hr))
    refine good_cut h fd (c1.steps.trans g2.1) (fromScratch_congr hv hσ3 c1.ratio c1.steps) (fun _ => ?_) (fun j hj hf => ?_)
    · right
      simp only [hmat, if_true]
      rw [hσ3, ← hW, hW2]
    · have hok : Ok val st2 j := by
        rcases c5 j with hfl | ⟨hsub, -⟩
        · exact g2.2 val hv j (by rw [hfl] at hf; exact hf)
        · exact k4 val hv j hsub hj
      exact hok.of_mat (by simp [hmat, hj])
  · rw [if_neg hc]
    have hb : b = false := by cases b <;> simp_all
    subst hb
    obtain ⟨rfl, f1⟩ := f1 rfl
    obtain ⟨val, hv⟩ := fromScratch_exists (pr := o.pr) (st := st1) (fun i hl r hr => h.covers.rank i hl r (hs ▸ hr))
    have hinv := hg.2 _ (cut_scratch h.top h.updates hs hv)
    have hm : st1.mat i₀ = some (W st1.σ) := by
      rcases hinv i₀ (f1 i₀ (.refl _)) with hh | hh
      · rw [hh] at hc; simp at hc
      · simpa using hh
    dsimp only
    rw [hm]
    obtain ⟨st3, e3⟩ := clear_total h.covers.rank l i₀ (setMat st1 i₀ (some (W st1.σ))) hs hl
    obtain ⟨c1, c2, -, -, c5, -⟩ := clear_spec o.pr steps l i₀ _ _ (by exact hs) e3
    have hmat : ∀ j, st3.mat j = st1.mat j := by
      intro j
      rw [c2]
      by_cases hj : j = i₀
      · subst hj; simp [setMat, hm]
      · simp [setMat, hj]
    have hσ3 : st3.σ = st1.σ := c1.σ
    rw [e3]
    refine ⟨st3, by simp [hmat, hm], ?_, c1.ratio.trans hr, Or.inl hσ3, by rw [hσ3], by rw [hmat, hm],
      fun hfl => by rw [f1 i₀ (.refl _)] at hfl; simp at hfl⟩
    refine good_cut h fd (c1.steps.trans hs) (fromScratch_congr hv hσ3 c1.ratio c1.steps) (fun _ => ?_) (fun j hj hf => ?_)
    · right
      simp only [hmat, hm]
      rw [hσ3]
    · have hf1 : st1.flag j = false := by
        rcases c5 j with hfl | ⟨hsub, -⟩
        · rw [hfl] at hf; exact hf
        · exact f1 j hsub.touch
      have := hinv j hf1
      refine Ok.of_mat (st := st1) ?_ (hmat j)
      simpa [Ok, hj] using this

theorem unitaryI_good (lim : Nat) (hi : rank i₀ + 1 < lim) (ratio : Nat → V) (st : St P V M) (hg : Good (inCut o fd ratio steps rank i₀) steps st)
    (hr : st.ratio = ratio) :
    ∃ st', unitaryI o fd lim i₀ st = some (some (inProd o fd ratio steps rank i₀ st.σ), st') ∧ PostI o fd ratio steps rank i₀ st st' := by
  have hs := hg.1
  obtain ⟨⟨b, st1⟩, e1⟩ := eff_total h.covers.rank lim i₀ st hs (by omega)
  obtain ⟨g1, f1⟩ := eff_spec o.pr steps lim _ _ _ _ hs e1
  have hg1 := grow_good h g1 hg
  obtain ⟨st2, e2, p⟩ := getUI_good h fd lim hi ratio st1 hg1 (g1.same.ratio.trans hr)
  have hset : setMat st2 i₀ (some (inProd o fd ratio steps rank i₀ st1.σ)) = st2 := by
    have : (fun j => if j = i₀ then some (inProd o fd ratio steps rank i₀ st1.σ) else st2.mat j) = st2.mat := by
      funext j
      by_cases hj : j = i₀
      · subst hj; simp [p.mat]
      · simp [hj]
    simp only [setMat, this]
  have hp : PostI o fd ratio steps rank i₀ st st2 := by
    rw [g1.same.σ] at *
    exact ⟨p.good, p.rat, by have := p.σ; rwa [g1.same.σ] at this, by have := p.prod; rwa [g1.same.σ] at this,
      by have := p.mat; rwa [g1.same.σ] at this, fun hf => by have := p.marked (g1.flag _ hf); rwa [g1.same.σ] at this⟩
  unfold unitaryI unitaryOf
  rw [e1]
  simp only [h.tame.notFixed i₀, e2, hset]
  cases b with
  | true => exact ⟨st2, by simp [p.mat, g1.same.σ], hp⟩
  | false =>
    obtain ⟨rfl, f1⟩ := f1 rfl
    cases hm : st1.mat i₀ with
    | none => exact ⟨st2, by simp [p.mat], hp⟩
    | some m =>
      obtain ⟨val, hv⟩ := fromScratch_exists (pr := o.pr) (st := st1) (fun i hl r hr => h.covers.rank i hl r (hs ▸ hr))
      have : m = inProd o fd ratio steps rank i₀ st1.σ := by
        rcases hg.2 _ (cut_scratch h.top h.updates hs hv) i₀ (f1 i₀ (.refl _)) with hh | hh
        · rw [hm] at hh; simp at hh
        · rw [hm] at hh; simpa using hh
      subst this
      exact ⟨st1, by simp, hg, hr, Or.inl rfl, rfl, hm, fun hfl => by rw [f1 i₀ (.refl _)] at hfl; simp at hfl⟩

end

end Verif.Whole
