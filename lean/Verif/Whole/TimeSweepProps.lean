import Verif.Whole.TimeSweep

/-!
# C82: the statements about runs with a time-dependent sweep
-/
namespace Verif.Whole
open Verif.Sweep Verif.Cache

variable {P V M S : Type} [DecidableEq P] [DecidableEq V]

section
variable {cfg : TCfg P V M S} {steps : Nat → List Ref} {rank : Nat → Nat} {ratio : Nat → V}

/-- A run from any reachable state: at every index, step `k` applies the unitary made from scratch with the parameters of the sweep point,
in which the time-dependent attributes have the values of combination number `k` (counted around), whatever these attributes were before the
run or at the end of the sweep point before.  The other parameters are as before. -/
theorem C82_run_partial (h : NiceT cfg steps rank) (hc : TdOk cfg.td) (hs : SweepsOk cfg.sweeps) (fd : FloatDiv) (st : St P V M)
    (hr : Reachable cfg.pr cfg.lim ratio steps st) (filled : Bool) (hf : ListsOk cfg filled) (i : Nat) (hi : i ∈ cfg.protos) :
    ∃ r f' st', runSeqT cfg fd i filled st = some (r, f', st') ∧ st'.ratio = ratio ∧ st'.steps = steps ∧
      (∀ q, (∀ t ∈ cfg.targets, q ∉ t) → (∀ t ∈ cfg.tdTargets, q ∉ t) → st'.σ q = st.σ q) ∧
      ∀ t, ValidIdx (axes cfg.sweeps) t → ∃ vals, ∃ x : List S, ∃ shown, Delivers cfg.sweeps t vals ∧ nestedGet r t = some shown ∧
        Shown (.list (x.map .atom)) shown ∧ ∀ σ, σ = overwrite cfg.targets vals st.σ →
          x.length = cfg.stepCount σ + 1 ∧ x[0]? = some (cfg.init i σ) ∧
          ∀ k < cfg.stepCount σ, ∃ now val, stepValues cfg.td k now ∧
            FromScratch cfg.pr (init (overwrite cfg.tdTargets now σ) ratio steps : St P V M) val ∧
            ∃ a, x[k]? = some a ∧ x[k + 1]? = some (cfg.act (val i) a) := by
  obtain ⟨hg, rfl⟩ := reachable_good h.toNice hr
  obtain ⟨r, e, hpt⟩ := runAll_ok fd hs (fun v => stored i (freshT cfg fd st.ratio steps rank (overwrite cfg.targets v st.σ)))
  obtain ⟨f', st', e1, -, g1, r1, s1⟩ := runSeqT_fresh h hc hf fd i st hg st.σ (fun _ _ _ => rfl) r e
  refine ⟨r, f', st', e1, r1, g1.1, s1, fun t ht => ?_⟩
  obtain ⟨vals, shown, h1, h2, h3⟩ := hpt t ht
  refine ⟨vals, (freshT cfg fd st.ratio steps rank (overwrite cfg.targets vals st.σ)).map fun c => c i, shown, h1, h2, ?_, ?_⟩
  · rw [List.map_map]
    exact h3
  · rintro σ rfl
    refine ⟨by simp [freshT], by simp [freshT, hi, List.range_succ_eq_map], fun k hk => ?_⟩
    have hfew := h.few (overwrite cfg.targets vals st.σ)
    refine ⟨tdVals fd cfg.td k, stepMat cfg fd st.ratio steps rank (overwrite cfg.targets vals st.σ) k,
      (tdVals_ok (cfg := cfg) hc fd (by omega)).2,
      scratchF_fromScratch (rank := rank) (fun i hl r hr => h.covers.rank i hl r hr), ?_⟩
    simp only [freshT, List.map_map, List.getElem?_map, List.getElem?_range (show k < cfg.stepCount (overwrite cfg.targets vals st.σ) + 1 by omega),
      List.getElem?_range (show k + 1 < cfg.stepCount (overwrite cfg.targets vals st.σ) + 1 by omega), Option.map_some, Function.comp, hi,
      if_true, Option.some.injEq]
    refine ⟨_, rfl, ?_⟩
    rw [List.range_succ, List.foldl_append]
    rfl

/-- With and without multi-processing the results are the same. -/
theorem C82_parallel_partial (h : NiceT cfg steps rank) (hc : TdOk cfg.td) (hs : SweepsOk cfg.sweeps) (fd : FloatDiv) (st : St P V M)
    (hr : Reachable cfg.pr cfg.lim ratio steps st) (filled : Bool) (hf : ListsOk cfg filled) (i : Nat) :
    ∃ r f' st', runSeqT cfg fd i filled st = some (r, f', st') ∧ runParT cfg fd i filled st = some (r, filled, st) := by
  obtain ⟨hg, rfl⟩ := reachable_good h.toNice hr
  obtain ⟨r, e, -⟩ := runAll_ok fd hs (fun v => stored i (freshT cfg fd st.ratio steps rank (overwrite cfg.targets v st.σ)))
  obtain ⟨f', st', e1, -⟩ := runSeqT_fresh h hc hf fd i st hg st.σ (fun _ _ _ => rfl) r e
  exact ⟨r, f', st', e1, runParT_fresh h hc hf fd i st hg r e⟩

/-- Although the last values stay assigned, a second run gives the same results, and so does any other simulation with the same values of
the attributes that are neither swept nor time-dependent. -/
theorem C82_rerun_partial (h : NiceT cfg steps rank) (hc : TdOk cfg.td) (hs : SweepsOk cfg.sweeps) (fd : FloatDiv) (st st2 : St P V M)
    (hr : Reachable cfg.pr cfg.lim ratio steps st) (hr2 : Reachable cfg.pr cfg.lim ratio steps st2) (filled filled2 : Bool)
    (hf : ListsOk cfg filled) (hf2 : ListsOk cfg filled2)
    (hσ : ∀ q, (∀ t ∈ cfg.targets, q ∉ t) → (∀ t ∈ cfg.tdTargets, q ∉ t) → st2.σ q = st.σ q) (i : Nat) :
    ∃ r f' st' y2 y3, runSeqT cfg fd i filled st = some (r, f', st') ∧ runSeqT cfg fd i filled2 st2 = some (r, y2) ∧
      runSeqT cfg fd i f' st' = some (r, y3) := by
  obtain ⟨hg, rfl⟩ := reachable_good h.toNice hr
  obtain ⟨hg2, hrat⟩ := reachable_good h.toNice hr2
  obtain ⟨r, e, -⟩ := runAll_ok fd hs (fun v => stored i (freshT cfg fd st.ratio steps rank (overwrite cfg.targets v st.σ)))
  obtain ⟨f', st', e1, hf', g1, r1, s1⟩ := runSeqT_fresh h hc hf fd i st hg st.σ (fun _ _ _ => rfl) r e
  obtain ⟨f2, st2', e2, -⟩ := runSeqT_fresh h hc hf2 fd i st2 hg2 st.σ hσ r (by rw [hrat]; exact e)
  obtain ⟨f3, st3, e3, -⟩ := runSeqT_fresh h hc hf' fd i st' g1 st.σ s1 r (by rw [r1]; exact e)
  exact ⟨r, f', st', _, _, e1, e2, e3⟩

end

/-! ### Piecewise constant Hamiltonians -/

section
open Verif.Toolbox Matrix

variable {d : ℕ}

/-- One `freeEvolution` with the Hamiltonian `H` of the parameters, and time-dependent sweeps. -/
noncomputable def drivenRun (H : (P → ℝ) → Op d) (dt : P) (psi : (P → ℝ) → Ket d) (stepCount : (P → ℝ) → Nat) (sweeps : List (SweepObj ℝ))
    (targets : List (List P)) (td : List (SweepObj ℝ)) (tdTargets : List (List P)) : TCfg P ℝ (Op d) (Ket d) where
  pr := { alg := { one := 1, mul := fun a b => a * b, conj := hc, mul_one := fun a => Matrix.mul_one a }, leaf := fun _ => true,
          U := fun _ σ ratio => unitaryOp (H σ) (σ dt * ratio), marks := fun _ _ => true, upds := fun _ => [], fixed := fun _ => false }
  lim := 100
  sweeps := sweeps
  targets := targets
  protos := [0]
  act := fun u s => u * s
  init := fun _ σ => psi σ
  stepCount := stepCount
  td := td
  tdTargets := tdTargets

/-- The states at an index are those of the Schrödinger equation with the piecewise constant Hamiltonian whose time-dependent parameters
have value number `k` (counted around) in the interval number `k`: each state is the exact propagator of the interval applied to the state
before, and the norm is that of the initial state. -/
theorem C82_schroedinger (H : (P → ℝ) → Op d) (hH : ∀ σ, (H σ)ᴴ = H σ) (dt : P) (psi : (P → ℝ) → Ket d) (stepCount : (P → ℝ) → Nat)
    (sweeps : List (SweepObj ℝ)) (targets : List (List P)) (vals : List ℝ) (p : P) (hlen : targets.length = sweeps.length)
    (hsw : SweepsOk sweeps) (hv : vals ≠ []) (hpsi : ∀ σ τ, (∀ q, q ≠ p → σ q = τ q) → psi σ = psi τ)
    (hcount : ∀ σ τ, (∀ q, q ≠ p → σ q = τ q) → stepCount σ = stepCount τ) (hfew : ∀ σ, stepCount σ ≤ 2 ^ 53) (hdt : dt ≠ p)
    (fd : FloatDiv) (ratio : Nat → ℝ) (st : St P ℝ (Op d))
    (hr : Reachable (drivenRun H dt psi stepCount sweeps targets [⟨vals, false⟩] [[p]]).pr 100 ratio (fun _ => []) st) :
    ∃ r f' st', runSeqT (drivenRun H dt psi stepCount sweeps targets [⟨vals, false⟩] [[p]]) fd 0 true st = some (r, f', st') ∧
      ∀ t, ValidIdx (axes sweeps) t → ∃ v, ∃ x : List (Ket d), ∃ shown, Delivers sweeps t v ∧ nestedGet r t = some shown ∧
        Shown (.list (x.map .atom)) shown ∧ ∀ σ, σ = overwrite targets v st.σ →
          x.length = stepCount σ + 1 ∧ x[0]? = some (psi σ) ∧
          (∀ k < stepCount σ, ∃ w a, vals[k % vals.length]? = some w ∧ x[k]? = some a ∧
            x[k + 1]? = some (unitaryOp (H fun q => if q = p then w else σ q) (σ dt * ratio 0) * a)) ∧
          ∀ phi ∈ x, hc phi * phi = hc (psi σ) * psi σ := by
  have hn : NiceT (drivenRun H dt psi stepCount sweeps targets [⟨vals, false⟩] [[p]]) (fun _ => []) (fun _ => 0) :=
    { tame := ⟨fun _ => rfl, fun _ _ => rfl, fun _ => ⟨[], rfl, List.nodup_nil⟩, by simp⟩
      covers := ⟨fun i _ σ τ r e => by rw [show σ = τ from funext fun p => e p rfl], fun i _ r hr => by simp at hr,
        fun i _ r hr => by simp at hr⟩
      deep := by simp [drivenRun]
      nodup := by simp [drivenRun]
      targets := hlen
      tdTargets := rfl
      init := fun _ σ τ e => hpsi σ τ (by simpa [drivenRun] using e)
      count := fun σ τ e => hcount σ τ (by simpa [drivenRun] using e)
      few := hfew }
  have hpos : 0 < vals.length := List.length_pos_iff.2 hv
  have htd : TdOk (drivenRun H dt psi stepCount sweeps targets [⟨vals, false⟩] [[p]]).td :=
    ⟨⟨_, _, rfl, rfl⟩, by
      intro j s hj n hn
      match j with
      | 0 => simp [drivenRun] at hj; subst hj; simp [drivenRun, axes, axisOf] at hn; simp [← hn]
      | j + 1 => simp [drivenRun] at hj, by simpa [drivenRun, axes] using hpos⟩
  obtain ⟨r, f', st', e, -, -, -, hpt⟩ := C82_run_partial hn htd hsw fd st hr true (Or.inl rfl) 0 (by simp [drivenRun])
  refine ⟨r, f', st', e, fun t ht => ?_⟩
  obtain ⟨v, x, shown, h1, h2, h3, h4⟩ := hpt t ht
  refine ⟨v, x, shown, h1, h2, h3, fun σ hσ => ?_⟩
  obtain ⟨hl, h0, hk⟩ := h4 σ hσ
  have key : ∀ k < stepCount σ, ∃ w a, vals[k % vals.length]? = some w ∧ x[k]? = some a ∧
      x[k + 1]? = some (unitaryOp (H fun q => if q = p then w else σ q) (σ dt * ratio 0) * a) := by
    intro k hk'
    obtain ⟨now, val, ⟨tt, ht1, ht2⟩, hval, a, ha, ha'⟩ := hk k hk'
    obtain ⟨hl2, hd⟩ := ht2
    obtain ⟨i, hi, hi2, hi3⟩ := hd 0 ⟨vals, false⟩ rfl
    have hm : k % vals.length < vals.length := Nat.mod_lt _ hpos
    have htt : tt = [k % vals.length] := by
      have hax : axes (drivenRun H dt psi stepCount sweeps targets [⟨vals, false⟩] [[p]]).td = [vals.length] := rfl
      rw [hax] at ht1
      rw [← map_idxOf_range] at ht1
      simp only [List.prod_cons, List.prod_nil, mul_one, List.getElem?_map, List.getElem?_range hm, Option.map_some, Option.some.injEq] at ht1
      rw [← ht1, idxOf_cons]
      simp [idxOf, digits]
    rw [htt] at hi
    obtain rfl : k % vals.length = i := by simpa [axisOf, drivenRun] using hi
    match now, hl2 with
    | [w], _ =>
      refine ⟨w, a, by simpa using hi2.symm, ha, ?_⟩
      rw [ha']
      have := hval.leaf 0 rfl
      have hov : overwrite [[p]] [w] σ = fun q => if q = p then w else σ q := by
        funext q
        simp [overwrite]
      have hval0 : val 0 = unitaryOp (H fun q => if q = p then w else σ q) (σ dt * ratio 0) := by
        rw [this]
        show unitaryOp (H (overwrite [[p]] [w] σ)) (overwrite [[p]] [w] σ dt * ratio 0) = _
        rw [hov]
        simp [hdt]
      rw [hval0]
      rfl
  refine ⟨hl, h0, key, ?_⟩
  have hnorm : ∀ k ≤ stepCount σ, ∀ phi, x[k]? = some phi → hc phi * phi = hc (psi σ) * psi σ := by
    intro k
    induction k with
    | zero => intro _ phi hphi; rw [h0] at hphi; cases hphi; rfl
    | succ k ih =>
      intro hk' phi hphi
      obtain ⟨w, a, -, ha, ha'⟩ := key k (by omega)
      rw [ha'] at hphi
      cases hphi
      rw [← ih (by omega) a ha]
      have hu := (C41_unitary _ (hH fun q => if q = p then w else σ q) (σ dt * ratio 0)).1
      simp only [hc_eq, conjTranspose_mul] at hu ⊢
      rw [Matrix.mul_assoc, ← Matrix.mul_assoc _ _ a, hu, Matrix.one_mul]
  intro phi hphi
  obtain ⟨k, hk', hk2⟩ := List.getElem_of_mem hphi
  have hl' : x.length = stepCount σ + 1 := hl
  exact hnorm k (by omega) phi (by rw [← hk2]; exact List.getElem?_eq_getElem hk')

end

section
open Verif.Toolbox Matrix

/-- A qubit with a detuning that takes three values one after the other and again, and a sweep over the step size: at the second step size
the fifth state comes from the fourth with the first value. -/
example (psi : Ket 2) (w0 w1 w2 t1 t2 : ℝ) (fd : FloatDiv) (σ : Bool → ℝ) : ∃ r f' st',
    runSeqT (drivenRun (P := Bool) (fun σ => ((σ true : ℝ) : ℂ) • sigmaz) false (fun _ => psi) (fun _ => 7)
      [⟨[t1, t2], false⟩] [[false]] [⟨[w0, w1, w2], false⟩] [[true]]) fd 0 true (init σ (fun _ => 1) (fun _ => [])) = some (r, f', st') ∧
    ∃ x : List (Ket 2), nestedGet r [1] = some (.list (x.map .atom)) ∧ ∃ a : Ket 2, x[3]? = some a ∧
      x[4]? = some (unitaryOp ((w0 : ℂ) • sigmaz) t2 * a) ∧ hc a * a = hc psi * psi := by
  obtain ⟨r, f', st', e, h⟩ := C82_schroedinger (P := Bool) (fun σ => ((σ true : ℝ) : ℂ) • sigmaz) (fun σ => by
      have : sigmazᴴ = sigmaz := by ext i j; fin_cases i <;> fin_cases j <;> simp [sigmaz]
      rw [conjTranspose_smul, this]
      simp) false (fun _ => psi) (fun _ => 7)
    [⟨[t1, t2], false⟩] [[false]] [w0, w1, w2] true rfl
    ⟨⟨_, _, rfl, rfl⟩, by
      intro j s hj n hn
      match j with
      | 0 => simp at hj; subst hj; simp [axes, axisOf] at hn; simp [← hn]
      | j + 1 => simp at hj, by simp [axes]⟩ (by simp) (fun _ _ _ => rfl) (fun _ _ _ => rfl) (fun _ => by norm_num) (by simp) fd
    (fun _ => 1) _ ⟨σ, [], by simp, rfl⟩
  refine ⟨r, f', st', e, ?_⟩
  obtain ⟨v, x, shown, hd, h4, h5, h⟩ := h [1] (.cons (by simp) .nil)
  obtain rfl : v = [t2] := by
    obtain ⟨hl, hd⟩ := hd
    obtain ⟨i, hi, e1, -⟩ := hd 0 _ rfl
    simp [axisOf] at hi
    subst hi
    match v, hl with
    | [a], _ => simp at e1; rw [e1]
  obtain ⟨h6, -, h7, h8⟩ := h _ rfl
  obtain ⟨w, a, hw, ha, ha'⟩ := h7 3 (by norm_num)
  obtain rfl : w0 = w := by simpa using hw
  refine ⟨x, ?_, a, ha, ?_, h8 a (List.mem_of_getElem? ha)⟩
  · rw [h4, h5.2]
    intro y hy
    have : (x.map PyVal.atom).length = 1 := by rw [PyVal.list.inj hy]; rfl
    rw [List.length_map, h6] at this
    omega
  · simpa [overwrite] using ha'

end

/-! ### Where it fails -/

/-- One step that adds the time-dependent parameter 0; parameter 1 may be swept. -/
def tdLine (init : (Nat → Nat) → Nat) (stepCount : (Nat → Nat) → Nat) (sweeps : List (SweepObj Nat)) (td : List (SweepObj Nat))
    (tdTargets : List (List Nat)) : TCfg Nat Nat Nat Nat where
  pr := { alg := { one := 0, mul := fun a b => a + b, conj := id, mul_one := Nat.add_zero }, leaf := fun _ => true,
          U := fun _ σ _ => σ 0 + 100 * σ 2, marks := fun _ _ => true, upds := fun _ => [], fixed := fun _ => false }
  lim := 100
  sweeps := sweeps
  targets := sweeps.map fun _ => [1]
  protos := [0]
  act := fun u s => u + s
  init := fun _ σ => init σ
  stepCount := stepCount
  td := td
  tdTargets := tdTargets

/-- A sweep over the number of steps with two simultaneous time-dependent sweeps, after some use of the objects: the second run and the run
with multi-processing give what the first gives. -/
example (fd : FloatDiv) (st : St Nat Nat Nat)
    (e : Cache.run (tdLine (fun _ => 4) (fun σ => min (σ 1) 9) [⟨[2, 5], false⟩] [⟨[5, 7], false⟩, ⟨[1, 2], false⟩] [[0], [2]]).pr 100
      [.unitary 0, .assign 2 7, .unitary 0] (Cache.init (fun _ => 1) (fun _ => 0) (fun _ => [])) = some st) :
    (∃ r f' st' y2 y3, runSeqT (tdLine (fun _ => 4) (fun σ => min (σ 1) 9) [⟨[2, 5], false⟩] [⟨[5, 7], false⟩, ⟨[1, 2], false⟩] [[0], [2]]) fd 0
        true st = some (r, f', st') ∧
      runSeqT (tdLine (fun _ => 4) (fun σ => min (σ 1) 9) [⟨[2, 5], false⟩] [⟨[5, 7], false⟩, ⟨[1, 2], false⟩] [[0], [2]]) fd 0 true
        (Cache.init (fun _ => 1) (fun _ => 0) (fun _ => [])) = some (r, y2) ∧
      runSeqT (tdLine (fun _ => 4) (fun σ => min (σ 1) 9) [⟨[2, 5], false⟩] [⟨[5, 7], false⟩, ⟨[1, 2], false⟩] [[0], [2]]) fd 0 f' st' =
        some (r, y3)) ∧
    ∃ r f' st', runSeqT (tdLine (fun _ => 4) (fun σ => min (σ 1) 9) [⟨[2, 5], false⟩] [⟨[5, 7], false⟩, ⟨[1, 2], false⟩] [[0], [2]]) fd 0
        true st = some (r, f', st') ∧
      runParT (tdLine (fun _ => 4) (fun σ => min (σ 1) 9) [⟨[2, 5], false⟩] [⟨[5, 7], false⟩, ⟨[1, 2], false⟩] [[0], [2]]) fd 0 true st =
        some (r, true, st) := by
  have hn : NiceT (tdLine (fun _ => 4) (fun σ => min (σ 1) 9) [⟨[2, 5], false⟩] [⟨[5, 7], false⟩, ⟨[1, 2], false⟩] [[0], [2]]) (fun _ => [])
      (fun _ => 0) :=
    { tame := ⟨fun _ => rfl, fun _ _ => rfl, fun _ => ⟨[], rfl, List.nodup_nil⟩, by simp⟩
      covers := ⟨fun i _ σ τ r e => by rw [show σ = τ from funext fun p => e p rfl], fun i _ r hr => by simp at hr,
        fun i _ r hr => by simp at hr⟩
      deep := by simp [tdLine]
      nodup := by simp [tdLine]
      targets := rfl
      tdTargets := rfl
      init := fun _ _ _ _ => rfl
      count := fun σ τ e => by
        show min (σ 1) 9 = min (τ 1) 9
        rw [e 1 (by simp [tdLine])]
      few := fun σ => by
        show min (σ 1) 9 ≤ _
        omega }
  have hl : ∀ a b : List Nat, a.length ≤ b.length → LongEnough [(⟨a, false⟩ : SweepObj Nat), ⟨b, false⟩] := by
    intro a b hab j s hj n hn
    match j with
    | 0 => simp at hj; subst hj; simp [axes, axisOf] at hn; simp [← hn]
    | 1 => simp at hj; subst hj; simp [axes, axisOf] at hn; simpa [← hn] using hab
    | j + 2 => simp at hj
  have hs : SweepsOk (tdLine (fun _ => 4) (fun σ => min (σ 1) 9) [⟨[2, 5], false⟩] [⟨[5, 7], false⟩, ⟨[1, 2], false⟩] [[0], [2]]).sweeps :=
    ⟨⟨_, _, rfl, rfl⟩, by
      intro j s hj n hn
      match j with
      | 0 => simp [tdLine] at hj; subst hj; simp [tdLine, axes, axisOf] at hn; simp [← hn]
      | j + 1 => simp [tdLine] at hj, by simp [axes, tdLine]⟩
  have hc : TdOk (tdLine (fun _ => 4) (fun σ => min (σ 1) 9) [⟨[2, 5], false⟩] [⟨[5, 7], false⟩, ⟨[1, 2], false⟩] [[0], [2]]).td :=
    ⟨⟨_, _, rfl, rfl⟩, hl [5, 7] [1, 2] le_rfl, by simp [tdLine, axes]⟩
  have hr : Reachable (tdLine (fun _ => 4) (fun σ => min (σ 1) 9) [⟨[2, 5], false⟩] [⟨[5, 7], false⟩, ⟨[1, 2], false⟩] [[0], [2]]).pr 100
    (fun _ => 0) (fun _ => []) st := ⟨_, _, by simp [Cmd.Plain], e⟩
  refine ⟨C82_rerun_partial hn hc hs fd st (Cache.init (fun _ => 1) (fun _ => 0) (fun _ => [])) hr ⟨fun _ => 1, [], by simp, rfl⟩ true true
    (Or.inl rfl) (Or.inl rfl) (fun q _ hq => ?_) 0, C82_parallel_partial hn hc hs fd st hr true (Or.inl rfl) 0⟩
  have h2 : q ≠ 2 := by
    have := hq [2] (by simp [tdLine])
    simpa using this
  have key : some (if q = 2 then 7 else 1) = some (st.σ q) := congrArg (Option.map fun (s : St Nat Nat Nat) => s.σ q) e
  rw [if_neg h2] at key
  exact Option.some.inj key

/-- Two runs of a simulation, one after the other. -/
def twice (cfg : TCfg Nat Nat Nat Nat) (filled : Bool) (σ : Nat → Nat) : Option (PyVal Nat × PyVal Nat) :=
  match runSeqT cfg exactDiv 0 filled (Cache.init σ (fun _ => 0) (fun _ => [])) with
  | none => none
  | some (r, f', st') => (runSeqT cfg exactDiv 0 f' st').map fun y => (r, y.1)

/-- A time-dependent attribute on which the initial state depends: nothing sets it back, so the second run starts from another state. -/
theorem C82_initial : twice (tdLine (fun σ => σ 0) (fun _ => 2) [] [⟨[5, 7], false⟩] [[0]]) true (fun _ => 0) =
    some (.list [.atom 0, .atom 5, .atom 12], .list [.atom 7, .atom 12, .atom 19]) := rfl

/-- A time-dependent attribute on which the number of steps depends (as `stepSize`): the number of steps is that of the value left behind. -/
theorem C82_step_count : twice (tdLine (fun _ => 0) (fun σ => σ 0) [] [⟨[3, 1], false⟩] [[0]]) true (fun q => if q = 0 then 2 else 0) =
    some (.list [.atom 0, .atom 3, .atom 4], .list [.atom 0, .atom 3]) := rfl

/-- Values given by `sweepMin`, `sweepMax` and `sweepStep`, fewer than the steps: the first run raises `IndexError`; with the same values
given as a list they are used again from the beginning. -/
theorem C82_short_range :
    runSeqT (tdLine (fun _ => 0) (fun _ => 3) [] [⟨[5, 7], false⟩] [[0]]) exactDiv 0 false (Cache.init (fun _ => 0) (fun _ => 0) (fun _ => [])) = none ∧
    (runSeqT (tdLine (fun _ => 0) (fun _ => 3) [] [⟨[5, 7], false⟩] [[0]]) exactDiv 0 true
      (Cache.init (fun _ => 0) (fun _ => 0) (fun _ => []))).map Prod.fst = some (.list [.atom 0, .atom 5, .atom 12, .atom 17]) := ⟨rfl, rfl⟩

/-- The same values in a sweep over the number of steps: one after the other the first point makes the list, and the second uses it again
from the beginning; with multi-processing every point has to make it, and the second raises `IndexError`. -/
theorem C82_range_parallel :
    (runSeqT (tdLine (fun _ => 0) (fun σ => σ 1) [⟨[2, 3], false⟩] [⟨[5, 7], false⟩] [[0]]) exactDiv 0 false
      (Cache.init (fun _ => 0) (fun _ => 0) (fun _ => []))).map Prod.fst =
      some (.list [.list [.atom 0, .atom 5, .atom 12], .list [.atom 0, .atom 5, .atom 12, .atom 17]]) ∧
    runParT (tdLine (fun _ => 0) (fun σ => σ 1) [⟨[2, 3], false⟩] [⟨[5, 7], false⟩] [[0]]) exactDiv 0 false
      (Cache.init (fun _ => 0) (fun _ => 0) (fun _ => [])) = none := ⟨rfl, rfl⟩

/-- A second, combinatorial time-dependent sweep: the first run raises if the first list has to be made, otherwise all is well. -/
theorem C82_range_combinations :
    runSeqT (tdLine (fun _ => 0) (fun _ => 3) [] [⟨[5, 7, 9], false⟩, ⟨[1, 2], true⟩] [[0], [2]]) exactDiv 0 false
      (Cache.init (fun _ => 0) (fun _ => 0) (fun _ => [])) = none ∧
    (runSeqT (tdLine (fun _ => 0) (fun _ => 3) [] [⟨[5, 7, 9], false⟩, ⟨[1, 2], true⟩] [[0], [2]]) exactDiv 0 true
      (Cache.init (fun _ => 0) (fun _ => 0) (fun _ => []))).map Prod.fst = some (.list [.atom 0, .atom 105, .atom 310, .atom 417]) := ⟨rfl, rfl⟩

end Verif.Whole
