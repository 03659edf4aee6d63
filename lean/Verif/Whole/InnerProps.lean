import Verif.Whole.InnerLemmas

/-!
# C83: the statements about time-dependent sweeps inside a protocol
-/
namespace Verif.Whole
open Verif.Sweep Verif.Cache

variable {P V M : Type} [DecidableEq P] [DecidableEq V]

/-! ### Histories -/

/-- The unitary from scratch depends only on the parameters that mark the protocol. -/
theorem scratchF_marks {pr : Prog P V M} {steps : Nat → List Ref} {rank : Nat → Nat} (C : Covers pr steps rank) (σ τ : P → V) (ratio : Nat → V) :
    ∀ n i, (∀ p, pr.marks p i = true → σ p = τ p) →
      scratchF pr (init σ ratio steps : St P V M) n i = scratchF pr (init τ ratio steps : St P V M) n i := by
  intro n
  induction n with
  | zero => intros; rfl
  | succ n ih =>
    intro i e
    unfold scratchF
    by_cases hl : pr.leaf i = true
    · rw [if_pos hl, if_pos hl]
      exact C.leafDep i hl _ _ _ fun p hp => updated_congr _ _ _ _ (e p hp)
    · rw [if_neg hl, if_neg hl]
      apply foldl_congr_mem
      intro r hr acc
      rw [ih r.id fun p hp => e p (C.closed i (not_leaf hl) r hr p hp)]

section
variable {o : IProg P V M} {steps : Nat → List Ref} {rank : Nat → Nat} {i₀ : Nat} (h : NiceI o steps rank i₀) (fd : FloatDiv)
include h

theorem cut_tame (ratio : Nat → V) : Tame (inCut o fd ratio steps rank i₀) steps := by
  refine ⟨h.tame.notFixed, fun i hl => ?_, h.tame.updOne, h.tame.noHc⟩
  by_cases e : i = i₀
  · simp [inCut, cut, e] at hl
  · exact h.tame.updLeaf i (by simpa [inCut, cut, e] using hl)

theorem cut_covers (ratio : Nat → V) : Covers (inCut o fd ratio steps rank i₀) steps rank := by
  refine ⟨fun i hl σ τ r e => ?_, fun i hl r hr p hp => ?_, cut_rank h fd ratio⟩
  · by_cases hi : i = i₀
    · subst hi
      simp only [inCut, cut, if_true]
      unfold inProd
      apply foldl_congr_mem
      intro k hk acc
      have hk' : k ≤ 2 ^ 53 := le_trans (le_of_lt (List.mem_range.1 hk)) h.few
      unfold inMat
      rw [scratchF_marks h.covers _ _ ratio (rank i + 1) i fun p hp =>
        overwrite_at _ _ σ τ p (by rw [(inVals_ok h fd hk').2.2, h.targets]) fun _ => e p hp]
    · simp only [inCut, cut, hi, if_false] at hl ⊢
      exact h.covers.leafDep i hl σ τ r e
  · by_cases hi : i = i₀
    · simp [inCut, cut, hi] at hl
    · exact h.covers.closed i (by simpa [inCut, cut, hi] using hl) r hr p hp

theorem other_agree (ratio : Nat → V) (lim j : Nat) (hj : j ≠ i₀) (st : St P V M) (hs : st.steps = steps) :
    unitaryI o fd lim j st = Cache.unitary (inCut o fd ratio steps rank i₀) lim j st ∧
    getUI o fd lim j st = getU (inCut o fd ratio steps rank i₀) lim j st := by
  have A : Agree i₀ o.pr o.pr := ⟨rfl, rfl, rfl, rfl, fun _ _ => rfl, fun _ _ => rfl⟩
  have A' := cut_agree o.pr i₀ (inProd o fd ratio steps rank i₀)
  constructor
  · unfold unitaryI Cache.unitary
    rw [unitaryOf_agree A h.top (fun j st hj hs => getUI_agree fd h.only h.top lim j st hj hs) j st hj hs]
    exact (unitaryOf_agree A' h.top (fun j st hj hs => getU_agree A' h.top lim j st hj hs) j st hj hs).symm
  · rw [getUI_agree fd h.only h.top lim j st hj hs]
    exact (getU_agree A' h.top lim j st hj hs).symm

theorem execI_good (lim : Nat) (hi : rank i₀ + 1 < lim) (ratio : Nat → V) (c : OCmd P V) (st st' : St P V M)
    (hg : Good (inCut o fd ratio steps rank i₀) steps st) (hr : st.ratio = ratio) (e : execI o fd lim c st = some st') :
    Good (inCut o fd ratio steps rank i₀) steps st' ∧ st'.ratio = ratio := by
  have plain : ∀ c : Cmd P V, c.Plain → exec (inCut o fd ratio steps rank i₀) lim c st = some st' →
      Good (inCut o fd ratio steps rank i₀) steps st' ∧ st'.ratio = ratio := by
    intro c hc e
    obtain ⟨a1, a2, a3⟩ := exec_inv (cut_tame h fd ratio) (cut_covers h fd ratio) c hc st st' hg.1 hg.2 e
    exact ⟨⟨a1, a3⟩, a2.trans hr⟩
  cases c with
  | assign p v => exact plain (.assign p v) trivial e
  | unitary j =>
    by_cases hj : j = i₀
    · subst hj
      obtain ⟨st2, e2, p⟩ := unitaryI_good h fd lim hi ratio st hg hr
      simp only [execI, e2, Option.map_some, Option.some.injEq] at e
      exact e ▸ ⟨p.good, p.rat⟩
    · refine plain (.unitary j) trivial ?_
      simpa only [exec, execI, (other_agree h fd ratio lim j hj st hg.1).1] using e
  | getUnitary j =>
    by_cases hj : j = i₀
    · subst hj
      obtain ⟨st2, e2, p⟩ := getUI_good h fd lim hi ratio st hg hr
      simp only [execI, e2, Option.map_some, Option.some.injEq] at e
      exact e ▸ ⟨p.good, p.rat⟩
    · refine plain (.getUnitary j) trivial ?_
      simpa only [exec, execI, (other_agree h fd ratio lim j hj st hg.1).2] using e

theorem runI_good (lim : Nat) (hi : rank i₀ + 1 < lim) (ratio : Nat → V) : ∀ (l : List (OCmd P V)) (st st' : St P V M),
    Good (inCut o fd ratio steps rank i₀) steps st → st.ratio = ratio → runI o fd lim l st = some st' →
    Good (inCut o fd ratio steps rank i₀) steps st' ∧ st'.ratio = ratio
  | [], st, st', hg, hr, e => by
    simp only [runI, Option.some.injEq] at e
    exact e ▸ ⟨hg, hr⟩
  | c :: l, st, st', hg, hr, e => by
    unfold runI at e
    split at e
    · simp at e
    rename_i st1 e1
    obtain ⟨g1, r1⟩ := execI_good h fd lim hi ratio c st st1 hg hr e1
    exact runI_good lim hi ratio l st1 st' g1 r1 e

/-! ### The theorems -/

/-- `m` is the product of the unitaries of `i` at the values of the time-dependent sweeps, the first to the right, each made from scratch with
all other parameters as in `σ`. -/
def InnerProduct (o : IProg P V M) (ratio : Nat → V) (steps : Nat → List Ref) (i : Nat) (σ : P → V) (m : M) : Prop :=
  ∃ (vals : Nat → List V) (val : Nat → Nat → M),
    (∀ k < (axes (o.td i)).prod, stepValues (o.td i) k (vals k) ∧
      FromScratch o.pr (init (overwrite (o.targets i) (vals k) σ) ratio steps : St P V M) (val k)) ∧
    m = (List.range (axes (o.td i)).prod).foldl (fun (acc : M) k => o.pr.alg.mul (val k i) acc) o.pr.alg.one

omit h in
theorem inProd_spec (h : NiceI o steps rank i₀) (ratio : Nat → V) (σ : P → V) :
    InnerProduct o ratio steps i₀ σ (inProd o fd ratio steps rank i₀ σ) := by
  refine ⟨inVals o fd i₀, fun k i => scratchF o.pr (init (overwrite (o.targets i₀) (inVals o fd i₀ k) σ) ratio steps : St P V M) (rank i + 1) i,
    fun k hk => ⟨(inVals_ok h fd (le_trans (le_of_lt hk) h.few)).2.1, ?_⟩, rfl⟩
  exact scratchF_fromScratch (rank := rank) (fun i hl r hr => h.covers.rank i hl r hr)

/-- C83: after any history of assignments and calls, `unitary()` and `getUnitary()` of the protocol with the time-dependent sweeps return the
product over all their values, in order; no other attribute changes, and the time-dependent ones are as they were or have their last
values. -/
theorem C83_product_partial (σ : P → V) (ratio : Nat → V) (lim : Nat) (hi : rank i₀ + 1 < lim) (l : List (OCmd P V)) (st : St P V M)
    (e : runI o fd lim l (init σ ratio steps) = some st) :
    ∃ m st' st'', InnerProduct o ratio steps i₀ st.σ m ∧ unitaryI o fd lim i₀ st = some (some m, st') ∧
      getUI o fd lim i₀ st = some (some m, st'') ∧
      (st'.σ = st.σ ∨ ∃ vals, stepValues (o.td i₀) ((axes (o.td i₀)).prod - 1) vals ∧ st'.σ = overwrite (o.targets i₀) vals st.σ) := by
  obtain ⟨hg, hr⟩ := runI_good h fd lim hi ratio l _ st ⟨rfl, fun val _ => init_inv (inCut o fd ratio steps rank i₀) σ ratio steps val⟩ rfl e
  obtain ⟨st1, e1, p⟩ := unitaryI_good h fd lim hi ratio st hg hr
  obtain ⟨st2, e2, -⟩ := getUI_good h fd lim hi ratio st hg hr
  refine ⟨_, st1, st2, inProd_spec fd h ratio st.σ, e1, e2, ?_⟩
  rcases p.σ with hσ | hσ
  · exact Or.inl hσ
  · exact Or.inr ⟨_, (inVals_ok h fd (by have := h.few; omega)).2.1, hσ⟩

/-- C83: a call that has to compute the unitary, as the first one and one after a change of a parameter of the protocol, leaves the last values
in the time-dependent attributes. -/
theorem C83_left_partial (σ : P → V) (ratio : Nat → V) (lim : Nat) (hi : rank i₀ + 1 < lim) (l : List (OCmd P V)) (st : St P V M)
    (e : runI o fd lim l (init σ ratio steps) = some st) (hm : l = [] ∨ ∃ l' p v st0, l = l' ++ [.assign p v] ∧
      runI o fd lim l' (init σ ratio steps) = some st0 ∧ o.pr.marks p i₀ = true ∧ st0.σ p ≠ v) :
    ∃ m st' vals, unitaryI o fd lim i₀ st = some (some m, st') ∧
      stepValues (o.td i₀) ((axes (o.td i₀)).prod - 1) vals ∧ st'.σ = overwrite (o.targets i₀) vals st.σ := by
  obtain ⟨hg, hr⟩ := runI_good h fd lim hi ratio l _ st ⟨rfl, fun val _ => init_inv (inCut o fd ratio steps rank i₀) σ ratio steps val⟩ rfl e
  have hfl : st.flag i₀ = true := by
    rcases hm with rfl | ⟨l', p, v, st0, rfl, e0, hm, hv⟩
    · simp only [runI, Option.some.injEq] at e
      rw [← e]
      rfl
    · have app : ∀ (l' : List (OCmd P V)) (s : St P V M), runI o fd lim (l' ++ [.assign p v]) s =
          (runI o fd lim l' s).map (assign o.pr p v) := by
        intro l'
        induction l' with
        | nil => intro s; rfl
        | cons c l' ih =>
          intro s
          show (match execI o fd lim c s with | none => none | some st => runI o fd lim (l' ++ [.assign p v]) st) =
            (match execI o fd lim c s with | none => none | some st => runI o fd lim l' st).map _
          cases execI o fd lim c s with
          | none => rfl
          | some s => exact ih s
      rw [app, e0, Option.map_some, Option.some.injEq] at e
      rw [← e, assign, if_pos (Ne.symm hv)]
      simp [hm]
  obtain ⟨st1, e1, p⟩ := unitaryI_good h fd lim hi ratio st hg hr
  exact ⟨_, st1, _, e1, (inVals_ok h fd (by have := h.few; omega)).2.1, p.marked hfl⟩

/-- C83: the values are not times.  If the time-dependent attributes do not matter for the protocol, its unitary is the power of what it is
without the sweeps: every value is one more evolution for the whole step size. -/
theorem C83_repeated_partial (σ : P → V) (ratio : Nat → V) (lim : Nat) (hi : rank i₀ + 1 < lim) (l : List (OCmd P V)) (st : St P V M)
    (e : runI o fd lim l (init σ ratio steps) = some st) (off : ∀ t ∈ o.targets i₀, ∀ p ∈ t, o.pr.marks p i₀ = false) :
    ∃ val st', FromScratch o.pr st val ∧
      unitaryI o fd lim i₀ st = some (some ((o.pr.alg.mul (val i₀))^[(axes (o.td i₀)).prod] o.pr.alg.one), st') := by
  obtain ⟨hg, hr⟩ := runI_good h fd lim hi ratio l _ st ⟨rfl, fun val _ => init_inv (inCut o fd ratio steps rank i₀) σ ratio steps val⟩ rfl e
  obtain ⟨st1, e1, p⟩ := unitaryI_good h fd lim hi ratio st hg hr
  have hv : FromScratch o.pr st fun i => scratchF o.pr (init st.σ ratio steps : St P V M) (rank i + 1) i :=
    fromScratch_congr (st := (init st.σ ratio steps : St P V M))
      (scratchF_fromScratch (rank := rank) (fun i hl r hr => h.covers.rank i hl r hr)) rfl hr hg.1
  refine ⟨_, st1, hv, ?_⟩
  rw [e1]
  congr 3
  unfold inProd
  rw [foldl_congr_mem _ (fun (acc : M) _ => o.pr.alg.mul (scratchF o.pr (init st.σ ratio steps : St P V M) (rank i₀ + 1) i₀) acc)]
  · have gen : ∀ (f : M → M) (n : Nat) (a : M), (List.range n).foldl (fun (acc : M) _ => f acc) a = f^[n] a := by
      intro f n
      induction n with
      | zero => intro a; rfl
      | succ n ih => intro a; rw [List.range_succ, List.foldl_append, ih, Function.iterate_succ_apply']; rfl
    exact gen _ _ _
  · intro k _ acc
    unfold inMat
    rw [scratchF_marks h.covers _ st.σ ratio (rank i₀ + 1) i₀ fun p hp => overwrite_off _ _ _ _ fun t ht hpt => ?_]
    rw [off t ht p hpt] at hp
    simp at hp

/-- C83: all other protocols are as in C14: their unitaries are those made from scratch with the current parameters. -/
theorem C83_others_partial (σ : P → V) (ratio : Nat → V) (lim : Nat) (hi : rank i₀ + 1 < lim) (l : List (OCmd P V)) (st : St P V M)
    (e : runI o fd lim l (init σ ratio steps) = some st) (j : Nat) (hj : j ≠ i₀) (hjl : rank j + 1 < lim) :
    ∃ val st', FromScratch o.pr st val ∧ unitaryI o fd lim j st = some (some (val j), st') ∧ st'.σ = st.σ := by
  obtain ⟨hg, -⟩ := runI_good h fd lim hi ratio l _ st ⟨rfl, fun val _ => init_inv (inCut o fd ratio steps rank i₀) σ ratio steps val⟩ rfl e
  have hs := hg.1
  obtain ⟨val, hv⟩ := fromScratch_exists (pr := o.pr) (st := st) (fun i hl r hr => h.covers.rank i hl r (hs ▸ hr))
  have hv2 := cut_scratch (W := inProd o fd ratio steps rank i₀) h.top h.updates hs hv
  have hn : Nice (S := Unit) ⟨inCut o fd ratio steps rank i₀, lim, [], [], [], fun _ s => s, fun _ _ => (), fun _ => 0⟩ steps rank :=
    ⟨cut_tame h fd ratio, cut_covers h fd ratio, by simp, by simp, rfl⟩
  obtain ⟨st', e1, -, s1, -⟩ := unitary_good hn hg hv2 (i := j) hjl
  refine ⟨val, st', hv, ?_, s1⟩
  rw [(other_agree h fd ratio lim j hj st hs).1, e1]
  simp [hj]

end

/-- C83: a protocol with time-dependent sweeps that have not been prepared cannot be computed: `IndexError`. -/
theorem C83_unprepared (o : IProg P V M) (fd : FloatDiv) (lim i : Nat) (st : St P V M) (hd : o.td i ≠ []) (hp : o.ts i = {})
    (hf : o.pr.fixed i = false) (hm : st.flag i = true) : unitaryI o fd lim i st = none ∧ getUI o fd lim i st = none := by
  have hg : ∀ (st : St P V M), st.flag i = true → getUI o fd lim i st = none := by
    intro st hm
    cases lim with
    | zero => rfl
    | succ lim =>
      unfold getUI
      cases e : setups o.pr (o.pr.upds i) st with
      | none => rfl
      | some x =>
        obtain ⟨ms, st1⟩ := x
        have hm1 := (setups_shift _ _ _ _ e).flag i hm
        dsimp only
        have : defGetI o fd lim (getUI o fd lim) i st1 = none := by
          unfold defGetI
          cases e2 : eff o.pr lim i st1 with
          | none => rfl
          | some y =>
            obtain ⟨b, st2⟩ := y
            have hb : b = true := by
              cases b with
              | true => rfl
              | false =>
                have := ((eff_spec o.pr st1.steps lim _ _ _ _ rfl e2).2 rfl).2 i (.refl i)
                rw [this] at hm1
                simp at hm1
            subst hb
            obtain ⟨s, ss, hss⟩ := List.exists_cons_of_ne_nil hd
            have hh : o.has i = true := by simp [IProg.has, hss]
            simp only [hf, Bool.not_false, Bool.and_true, Bool.true_or, if_true, hh, hp]
            simp [innerLoop, innerValues, hh, hp, indicesForSweep, indicesLoop, runSweep, hss, runSweepLoop]
        rw [this]
  refine ⟨?_, hg st hm⟩
  unfold unitaryI unitaryOf
  cases e : eff o.pr lim i st with
  | none => rfl
  | some x =>
    obtain ⟨b, st1⟩ := x
    obtain ⟨g1, f1⟩ := eff_spec o.pr st.steps lim _ _ _ _ rfl e
    have hb : b = true := by
      cases b with
      | true => rfl
      | false => have := (f1 rfl).2 i (.refl i); rw [this] at hm; simp at hm
    subst hb
    simp [hf, hg st1 (g1.flag i hm)]

/-- C83: with a list without values among the time-dependent sweeps (as `arange` gives for a step with the wrong sign), `unitary()` and
`getUnitary()` return the identity, whatever the protocol is; nothing is raised for the list. -/
theorem C83_empty (o : IProg P V M) (fd : FloatDiv) (lim i : Nat) (st : St P V M) (h0 : 0 ∈ axes (o.td i))
    (hp : o.ts i = Sweep.prepare {} (o.td i)) (hf : o.pr.fixed i = false) (hm : st.flag i = true) (m : Option M) (st' : St P V M) :
    (getUI o fd lim i st = some (m, st') → m = some o.pr.alg.one) ∧ (unitaryI o fd lim i st = some (m, st') → m = some o.pr.alg.one) := by
  have hne : o.td i ≠ [] := by rintro e; rw [e] at h0; simp [axes] at h0
  have hz : (o.ts i).indMultip = 0 := by
    obtain ⟨s, ss, e⟩ := List.exists_cons_of_ne_nil hne
    rw [hp, e, prepare_cons_multip, ← e, prepare_inds _ _ hne]
    exact List.prod_eq_zero (List.mem_reverse.2 h0)
  have hh : o.has i = true := by
    obtain ⟨s, ss, e⟩ := List.exists_cons_of_ne_nil hne
    simp [IProg.has, e]
  have hg : ∀ (st : St P V M) m st', st.flag i = true → getUI o fd lim i st = some (m, st') → m = some o.pr.alg.one := by
    intro st m st' hm hu
    cases lim with
    | zero => simp [getUI] at hu
    | succ lim =>
      unfold getUI at hu
      cases e : setups o.pr (o.pr.upds i) st with
      | none => rw [e] at hu; simp at hu
      | some x =>
        obtain ⟨ms, st1⟩ := x
        have hm1 := (setups_shift _ _ _ _ e).flag i hm
        rw [e] at hu
        dsimp only at hu
        cases e2 : eff o.pr lim i st1 with
        | none => simp [defGetI, e2] at hu
        | some y =>
          obtain ⟨b, st2⟩ := y
          have hb : b = true := by
            cases b with
            | true => rfl
            | false =>
              have := ((eff_spec o.pr st1.steps lim _ _ _ _ rfl e2).2 rfl).2 i (.refl i)
              rw [this] at hm1
              simp at hm1
          subst hb
          have hd : defGetI o fd lim (getUI o fd lim) i st1 = some (some o.pr.alg.one, setMat st2 i (some o.pr.alg.one)) := by
            simp [defGetI, e2, hf, hh, hz, innerLoop, setMat]
          rw [hd] at hu
          dsimp only at hu
          cases e3 : clear o.pr lim i (setbacks o.pr (o.pr.upds i) ms (setMat (setMat st2 i (some o.pr.alg.one)) i (some o.pr.alg.one))) with
          | none => rw [e3] at hu; simp at hu
          | some st3 =>
            rw [e3] at hu
            simp only [Option.some.injEq, Prod.mk.injEq] at hu
            rw [← hu.1, (clear_spec o.pr _ lim i _ _ rfl e3).2.1, (setbacks_shift _ _ _).mat]
            simp [setMat]
  refine ⟨hg st m st' hm, fun hu => ?_⟩
  unfold unitaryI unitaryOf at hu
  cases e : eff o.pr lim i st with
  | none => rw [e] at hu; simp at hu
  | some x =>
    obtain ⟨b, st1⟩ := x
    obtain ⟨g1, f1⟩ := eff_spec o.pr st.steps lim _ _ _ _ rfl e
    have hb : b = true := by
      cases b with
      | true => rfl
      | false => have := (f1 rfl).2 i (.refl i); rw [this] at hm; simp at hm
    subst hb
    rw [e] at hu
    cases e4 : getUI o fd lim i st1 with
    | none => simp [hf, e4] at hu
    | some y =>
      obtain ⟨m1, st2⟩ := y
      have hm1 := hg st1 m1 st2 (g1.flag i hm) e4
      simp only [hf, e4, if_true, Bool.false_eq_true, if_false, Option.some.injEq, Prod.mk.injEq] at hu
      rw [← hu.1, hm1]
      simp [setMat]

/-! ### Examples, and where it fails -/

/-- Protocol 0 has the steps 1 and 2, which use parameters 0 and 1 (and 2); protocol 3 uses parameter 0.  The unitaries are words. -/
def inLine (td : Nat → List (SweepObj Nat)) (targets : Nat → List (List Nat)) (prepared : Bool) : IProg Nat Nat (List Nat) where
  pr := { alg := { one := [], mul := fun a b => a ++ b, conj := id, mul_one := List.append_nil }, leaf := fun i => i != 0,
          U := fun i σ _ => [if i = 2 then 100 + σ 1 else if i = 3 then 200 + σ 0 else σ 0], marks := fun _ _ => true, upds := fun _ => [],
          fixed := fun _ => false }
  td := td
  targets := targets
  ts := fun i => if prepared then Sweep.prepare {} (td i) else {}

/-- The steps of protocol 0. -/
def inSteps (l : List Ref) : Nat → List Ref := fun i => if i = 0 then l else []

/-- What `unitary()` of the protocols in turn returns, and parameter 0 at the end. -/
def reads (o : IProg Nat Nat (List Nat)) : List Nat → St Nat Nat (List Nat) → Option (List (Option (List Nat)) × Nat)
  | [], st => some ([], st.σ 0)
  | i :: r, st => match unitaryI o exactDiv 100 i st with
    | none => none
    | some (m, st) => (reads o r st).map fun x => (m :: x.1, x.2)

/-- Two simultaneous and one combinatorial time-dependent sweeps of a protocol with two steps, one of them used twice, after some use. -/
example (fd : FloatDiv) (st : St Nat Nat (List Nat))
    (e : runI (inLine (fun i => if i = 0 then [⟨[5, 7], false⟩, ⟨[1, 2], false⟩, ⟨[8, 9], true⟩] else [])
      (fun i => if i = 0 then [[0], [1], [2]] else []) true) fd 100 [.unitary 0, .assign 0 3, .unitary 3, .getUnitary 0]
      (init (fun _ => 4) (fun _ => 0) (inSteps [.orig 1, .orig 2, .copy 1 false])) = some st) :
    ∃ m st', InnerProduct (inLine (fun i => if i = 0 then [⟨[5, 7], false⟩, ⟨[1, 2], false⟩, ⟨[8, 9], true⟩] else [])
        (fun i => if i = 0 then [[0], [1], [2]] else []) true) (fun _ => 0) (inSteps [.orig 1, .orig 2, .copy 1 false]) 0 st.σ m ∧
      unitaryI (inLine (fun i => if i = 0 then [⟨[5, 7], false⟩, ⟨[1, 2], false⟩, ⟨[8, 9], true⟩] else [])
        (fun i => if i = 0 then [[0], [1], [2]] else []) true) fd 100 0 st = some (some m, st') := by
  have hn : NiceI (inLine (fun i => if i = 0 then [⟨[5, 7], false⟩, ⟨[1, 2], false⟩, ⟨[8, 9], true⟩] else [])
      (fun i => if i = 0 then [[0], [1], [2]] else []) true) (inSteps [.orig 1, .orig 2, .copy 1 false]) (fun i => if i = 0 then 1 else 0) 0 :=
    { tame := ⟨fun _ => rfl, fun _ _ => rfl, fun _ => ⟨[], rfl, List.nodup_nil⟩, fun i j => by unfold inSteps; split <;> simp⟩
      covers := ⟨fun i _ σ τ r e => by rw [show σ = τ from funext fun p => e p rfl], fun _ _ _ _ _ _ => rfl, fun i _ r hr => by
        unfold inSteps at hr
        split at hr
        · rename_i h0
          simp only [List.mem_cons, List.not_mem_nil, or_false] at hr
          rcases hr with rfl | rfl | rfl <;> simp [Ref.id, h0]
        · simp at hr⟩
      only := fun j hj => by simp [inLine, hj]
      top := fun j r hr => by
        unfold inSteps at hr
        split at hr
        · simp only [List.mem_cons, List.not_mem_nil, or_false] at hr
          rcases hr with rfl | rfl | rfl <;> simp [Ref.id]
        · simp at hr
      updates := rfl
      td := ⟨⟨_, _, rfl, rfl⟩, by
        intro j s hj n hn
        match j with
        | 0 => simp [inLine] at hj; subst hj; simp [inLine, axes, axisOf] at hn; simp [← hn]
        | 1 => simp [inLine] at hj; subst hj; simp [inLine, axes, axisOf] at hn; simp [← hn]
        | 2 => simp [inLine] at hj; subst hj; simp [inLine, axes, axisOf] at hn; simp [← hn]
        | j + 3 => simp [inLine] at hj, by simp [inLine, axes]⟩
      targets := rfl
      few := by simp [inLine, axes]
      prepared := rfl }
  obtain ⟨m, st', -, h1, h2, -⟩ := C83_product_partial hn fd (fun _ => 4) (fun _ => 0) 100 (by simp) _ st e
  exact ⟨m, st', h1, h2⟩

/-- The unitary of this protocol. -/
example : reads (inLine (fun i => if i = 0 then [⟨[5, 7], false⟩, ⟨[1, 2], false⟩, ⟨[8, 9], true⟩] else [])
    (fun i => if i = 0 then [[0], [1], [2]] else []) true) [0]
    (init (fun _ => 4) (fun _ => 0) (inSteps [.orig 1, .orig 2, .copy 1 false])) =
      some ([some [7, 102, 7, 7, 102, 7, 5, 101, 5, 5, 101, 5]], 7) := rfl

/-- The unitaries of a protocol with its first and its second call, without and with `prepare()`. -/
theorem C83_calls :
    reads (inLine (fun i => if i = 0 then [⟨[5, 7], false⟩] else []) (fun i => if i = 0 then [[0]] else []) false)
      [0] (init (fun _ => 4) (fun _ => 0) (inSteps [.orig 1, .orig 2])) = none ∧
    reads (inLine (fun i => if i = 0 then [⟨[5, 7], false⟩] else []) (fun i => if i = 0 then [[0]] else []) true)
      [0, 0] (init (fun _ => 4) (fun _ => 0) (inSteps [.orig 1, .orig 2])) =
        some ([some [104, 7, 104, 5], some [104, 7, 104, 5]], 7) := ⟨rfl, rfl⟩

/-- A protocol with an empty list: the first call and the second. -/
example : reads (inLine (fun i => if i = 0 then [⟨[5, 7], false⟩, ⟨[], true⟩] else []) (fun i => if i = 0 then [[0], [1]] else []) true)
    [0, 0] (init (fun _ => 4) (fun _ => 0) (inSteps [.orig 1, .orig 2])) = some ([some [], some []], 4) := rfl

/-- Asking for the unitary of a protocol with a time-dependent sweep changes the unitary of another protocol. -/
theorem C83_reading_changes :
    reads (inLine (fun i => if i = 0 then [⟨[5, 7], false⟩] else []) (fun i => if i = 0 then [[0]] else []) true)
      [3, 0, 3] (init (fun _ => 4) (fun _ => 0) (inSteps [.orig 1, .orig 2])) =
        some ([some [204], some [104, 7, 104, 5], some [207]], 7) := rfl

/-- The time-dependent sweep in the last step of a protocol: an earlier step that uses the same parameter keeps the unitary of the value
before, and so does the protocol, although the parameter has its last value then. -/
theorem C83_step_stale :
    reads (inLine (fun i => if i = 2 then [⟨[5, 7], false⟩] else []) (fun i => if i = 2 then [[0]] else []) true)
      [0, 1, 0] (init (fun _ => 4) (fun _ => 0) (inSteps [.orig 1, .orig 2])) =
        some ([some [104, 104, 4], some [4], some [104, 104, 4]], 7) ∧
    reads (inLine (fun i => if i = 2 then [⟨[5, 7], false⟩] else []) (fun i => if i = 2 then [[0]] else []) true)
      [1, 0] (init (fun q => if q = 0 then 7 else 4) (fun _ => 0) (inSteps [.orig 1, .orig 2])) =
        some ([some [7], some [104, 104, 7]], 7) := ⟨rfl, rfl⟩

end Verif.Whole
