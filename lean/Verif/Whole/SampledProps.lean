import Verif.Whole.Sampled
import Verif.Evol.Sampling

/-!
# C81: the statements about runs with samples inside the steps
-/
namespace Verif.Whole
open Verif.Sweep Verif.Cache

variable {P V M S : Type} [DecidableEq P] [DecidableEq V]

section
variable {cfg : SCfg P V M S} {steps : Nat → List Ref} {rank : Nat → Nat} {ratio : Nat → V}

/-- A run from any reachable state, with `stepSample` as earlier runs left it.  A protocol is sampled if an earlier run sampled it or one of
its steps asks for more than one sample *before the sweeps are applied*.  For a sampled protocol every time step of every sweep point applies
the unitaries of the steps, made from scratch with the parameters of the point, in order and each as often as it has samples at the point,
and `sampleStates` are all the states on the way; otherwise it applies the unitary of the protocol. -/
theorem C81_run_partial (h : Nice cfg.toCfg steps rank) (hs : SweepsOk cfg.sweeps) (fd : FloatDiv) (st : St P V M)
    (hr : Reachable cfg.pr cfg.lim ratio steps st) (ss : Nat → Bool) (hss : ∀ i, ss i = true → cfg.pr.leaf i = false)
    (i : Nat) (hi : i ∈ cfg.protos) :
    ∃ r ss' st', runSeqS cfg fd i ss st = some (r, ss', st') ∧
      (∀ j, ss' j = true ↔ ss j = true ∨ j ∈ cfg.protos ∧ cfg.pr.leaf j = false ∧ ∃ q ∈ steps j, 1 < cfg.samples q.id st.σ) ∧
      st'.ratio = ratio ∧ st'.steps = steps ∧ (∀ q, (∀ t ∈ cfg.targets, q ∉ t) → st'.σ q = st.σ q) ∧
      ∀ t, ValidIdx (axes cfg.sweeps) t → ∃ vals val x shown, Delivers cfg.sweeps t vals ∧ ∀ σ, σ = overwrite cfg.targets vals st.σ →
        FromScratch cfg.pr (init σ ratio steps : St P V M) val ∧
        Course (fun s => if ss' i then after cfg.act (applied (fun j => cfg.samples j σ) val (steps i)) s else (cfg.act (val i) s, []))
          (cfg.init i σ) (cfg.stepCount σ) x ∧
        nestedGet r t = some shown ∧ Shown (.list (x.map .atom)) shown := by
  obtain ⟨hg, rfl⟩ := reachable_good h hr
  have hd := flagsOk_detect hss st
  obtain ⟨r, e, hpt⟩ := runAll_ok fd hs
    (fun v => storedS i (freshS cfg (detect cfg st ss) st.ratio steps rank (overwrite cfg.targets v st.σ)))
  obtain ⟨st', e1, g1, r1, s1⟩ := runSeqS_fresh h fd i ss st hg hd st.σ (fun _ _ => rfl) r e
  refine ⟨r, _, st', e1, ?_, r1, g1.1, s1, fun t ht => ?_⟩
  · intro j
    simp only [detect, hg.1, Bool.or_eq_true, Bool.and_eq_true, Bool.not_eq_true', decide_eq_true_eq, List.any_eq_true, and_assoc]
  obtain ⟨vals, shown, h1, h2, h3⟩ := hpt t ht
  refine ⟨vals, fun i => scratchF cfg.pr (init (overwrite cfg.targets vals st.σ) st.ratio steps : St P V M) (rank i + 1) i,
    (statesAtS cfg (detect cfg st ss) steps
      (fun i => scratchF cfg.pr (init (overwrite cfg.targets vals st.σ) st.ratio steps : St P V M) (rank i + 1) i)
      (overwrite cfg.targets vals st.σ)).map fun c => c i, shown, h1, fun σ hσ => ⟨?_, ?_, h2, ?_⟩⟩
  · rw [hσ]
    exact scratchF_fromScratch (rank := rank) (fun i hl r hr => h.covers.rank i hl r hr)
  · rw [hσ]
    exact statesAtS_course (detect cfg st ss) _ _ i hi
  · rw [List.map_map]
    exact h3

/-- With and without multi-processing the results and samples are the same. -/
theorem C81_parallel_partial (h : Nice cfg.toCfg steps rank) (hs : SweepsOk cfg.sweeps) (fd : FloatDiv) (st : St P V M)
    (hr : Reachable cfg.pr cfg.lim ratio steps st) (ss : Nat → Bool) (hss : ∀ i, ss i = true → cfg.pr.leaf i = false) (i : Nat) :
    ∃ r ss' st', runSeqS cfg fd i ss st = some (r, ss', st') ∧ runParS cfg fd i ss st = some (r, ss', st) := by
  obtain ⟨hg, rfl⟩ := reachable_good h hr
  have hd := flagsOk_detect hss st
  obtain ⟨r, e, -⟩ := runAll_ok fd hs
    (fun v => storedS i (freshS cfg (detect cfg st ss) st.ratio steps rank (overwrite cfg.targets v st.σ)))
  obtain ⟨st', e1, -⟩ := runSeqS_fresh h fd i ss st hg hd st.σ (fun _ _ => rfl) r e
  exact ⟨r, _, st', e1, runParS_fresh h fd i ss st hg hd r e⟩

end

/-! ### Consequences for what the callbacks find -/

omit [DecidableEq P] [DecidableEq V] in
theorem course_step {f : S → S × List S} {s : S} {n : Nat} {x : List (S × List S)} (h : Course f s n x) {k : Nat} (hk : k < n) :
    ∃ a, x[k]? = some a ∧ x[k + 1]? = some (f a.1) := by
  have hl : k < x.length := by rw [h.1]; omega
  exact ⟨x[k], List.getElem?_eq_getElem hl, h.2.2 k hk _ (List.getElem?_eq_getElem hl)⟩

omit [DecidableEq P] [DecidableEq V] in
/-- After every time step of a sampled protocol `sampleStates` has as many entries as the steps have samples together, and the last one is
the current state. -/
theorem C81_counts (act : M → S → S) (n : Nat → Nat) (val : Nat → M) (rs : List Ref) (s : S) (N : Nat) (x : List (S × List S))
    (h : Course (after act (applied n val rs)) s N x) (k : Nat) (hk : k < N) :
    ∃ a, x[k + 1]? = some a ∧ a.2.length = (rs.map fun r => n r.id).sum ∧ (a.2 ≠ [] → a.2.getLast? = some a.1) := by
  obtain ⟨b, -, h2⟩ := course_step h hk
  refine ⟨_, h2, ?_, ?_⟩
  · simp [after, applied, List.length_flatMap]
  · intro hne
    have key : ∀ (us : List M) (s : S), (List.scanl (fun s u => act u s) s us).getLast? = some (us.foldl (fun s u => act u s) s) := by
      intro us
      induction us with
      | nil => intro s; rfl
      | cons u us ih =>
        intro s
        rw [List.scanl_cons, List.foldl_cons, ← ih (act u s)]
        cases us <;> simp [List.scanl_cons]
    have := key (applied n val rs) b.1
    simp only [after] at hne ⊢
    rw [← this]
    cases hc : List.scanl (fun s u => act u s) b.1 (applied n val rs) with
    | nil => rw [hc] at hne; simp at hne
    | cons y ys =>
      rw [hc] at hne
      simp only [List.tail_cons] at hne ⊢
      cases ys with
      | nil => exact absurd rfl hne
      | cons z zs => rw [List.getLast?_cons_cons]

omit [DecidableEq P] [DecidableEq V] in
theorem foldl_applied (act : M → S → S) (n : Nat → Nat) (val : Nat → M) (W : Nat → S → S) : ∀ (rs : List Ref),
    (∀ r ∈ rs, (act (val r.id))^[n r.id] = W r.id) → ∀ s, (applied n val rs).foldl (fun s u => act u s) s = rs.foldl (fun s r => W r.id s) s
  | [], _, s => rfl
  | r :: rs, hW, s => by
    have h1 : ∀ (m : Nat) (u : M) (s : S), (List.replicate m u).foldl (fun s u => act u s) s = (act u)^[m] s := by
      intro m u
      induction m with
      | zero => intro s; rfl
      | succ m ih => intro s; rw [List.replicate_succ, List.foldl_cons, ih, Function.iterate_succ_apply]
    have : applied n val (r :: rs) = List.replicate (n r.id) (val r.id) ++ applied n val rs := by simp [applied]
    rw [this, List.foldl_append, h1, hW r (by simp), List.foldl_cons]
    exact foldl_applied act n val W rs (fun q hq => hW q (by simp [hq])) _

omit [DecidableEq P] [DecidableEq V] in
/-- If the samples of each step together do what `W` says for the whole step, the current states do not depend on the numbers of samples. -/
theorem C81_independent (act : M → S → S) (n : Nat → Nat) (val : Nat → M) (W : Nat → S → S) (rs : List Ref)
    (hW : ∀ r ∈ rs, (act (val r.id))^[n r.id] = W r.id) (s : S) (N : Nat) (x : List (S × List S))
    (h : Course (after act (applied n val rs)) s N x) (k : Nat) (hk : k ≤ N) :
    ∃ a, x[k]? = some a ∧ a.1 = (fun s => rs.foldl (fun s r => W r.id s) s)^[k] s := by
  induction k with
  | zero => exact ⟨_, h.2.1, rfl⟩
  | succ k ih =>
    obtain ⟨a, h1, h2⟩ := ih (by omega)
    refine ⟨_, h.2.2 k (by omega) a h1, ?_⟩
    rw [Function.iterate_succ_apply', ← h2]
    exact foldl_applied act n val W rs hW a.1

/-- A protocol that an earlier run sampled, now with one sample per step: the current states are those without sampling. -/
theorem C81_one_sample (pr : Prog P V M) (act : M → S → S) (hmul : ∀ a b s, act (pr.alg.mul a b) s = act a (act b s))
    (hone : ∀ s, act pr.alg.one s = s) {st : St P V M} {val : Nat → M} (hv : FromScratch pr st val) {i : Nat} (hi : pr.leaf i = false)
    (n : Nat → Nat) (hn : ∀ r ∈ st.steps i, n r.id = 1) (s : S) (N : Nat) (x : List (S × List S))
    (h : Course (after act (applied n val (st.steps i))) s N x) : Trajectory act (val i) s N (x.map Prod.fst) := by
  have key : ∀ (rs : List Ref) (u : M) (s : S),
      act (rs.foldl (fun (acc : M) r => pr.alg.mul (val r.id) acc) u) s = rs.foldl (fun s r => act (val r.id) s) (act u s) := by
    intro rs
    induction rs with
    | nil => intro u s; rfl
    | cons r rs ih => intro u s; rw [List.foldl_cons, ih, List.foldl_cons, hmul]
  refine ⟨by rw [List.length_map, h.1], by rw [List.getElem?_map, h.2.1]; rfl, ?_⟩
  intro k hk a ha
  rw [List.getElem?_map, Option.map_eq_some_iff] at ha
  obtain ⟨b, hb, rfl⟩ := ha
  rw [List.getElem?_map, h.2.2 k hk b hb, Option.map_some]
  congr 1
  simp only [after]
  rw [foldl_applied act n val (fun j => act (val j)) (st.steps i) (fun r hr => by rw [hn r hr]; rfl), hv.comp i hi, key, hone]

/-! ### Free evolutions -/

section
open Verif.Toolbox Matrix

variable {d : ℕ}

/-- A protocol (`0`) of free evolutions (`1, 2, …`) with Hamiltonians `H`: `matrixExponentiation` (`QPro.py:400-407`) uses the time step
`stepSize * ratio / samples`.  All parameters mark all steps. -/
noncomputable def freeSampled (H : Nat → (P → ℝ) → Op d) (dt : P) (samples : Nat → (P → ℝ) → Nat) (psi : (P → ℝ) → Ket d)
    (stepCount : (P → ℝ) → Nat) (sweeps : List (SweepObj ℝ)) (targets : List (List P)) : SCfg P ℝ (Op d) (Ket d) where
  pr := { alg := { one := 1, mul := fun a b => a * b, conj := hc, mul_one := fun a => Matrix.mul_one a }, leaf := fun i => decide (i ≠ 0),
          U := fun j σ ratio => unitaryOp (H j σ) (σ dt * ratio / (samples j σ : ℝ)), marks := fun _ _ => true, upds := fun _ => [],
          fixed := fun _ => false }
  lim := 100
  sweeps := sweeps
  targets := targets
  protos := [0]
  act := fun u s => u * s
  init := fun _ σ => psi σ
  stepCount := stepCount
  samples := samples

theorem freeSampled_nice (H : Nat → (P → ℝ) → Op d) (dt : P) (samples : Nat → (P → ℝ) → Nat) (psi : (P → ℝ) → Ket d)
    (stepCount : (P → ℝ) → Nat) (sweeps : List (SweepObj ℝ)) (targets : List (List P)) (h : targets.length = sweeps.length)
    (steps : List Ref) (h0 : ∀ r ∈ steps, r.id ≠ 0) (hc : ∀ j, Ref.copy j true ∉ steps) :
    Nice (freeSampled H dt samples psi stepCount sweeps targets).toCfg (fun i => if i = 0 then steps else []) (fun i => if i = 0 then 1 else 0) where
  tame := ⟨fun _ => rfl, fun _ _ => rfl, fun _ => ⟨[], rfl, List.nodup_nil⟩, fun i j => by
    split
    · exact hc j
    · simp⟩
  covers := by
    refine ⟨fun i _ σ τ r e => by rw [show σ = τ from funext fun p => e p rfl], fun _ _ _ _ _ _ => rfl, fun i hi r hr => ?_⟩
    have : i = 0 := by simpa [freeSampled] using hi
    subst this
    rw [if_pos rfl] at hr
    simp [h0 r hr]
  deep := by simp [freeSampled]
  nodup := by simp [freeSampled]
  targets := h

/-- In a sampled run of a protocol of free evolutions the states are those of the exact propagators of the steps over their whole times,
whatever the numbers of samples are; the samples are in number those asked for. -/
theorem C81_schroedinger (H : Nat → (P → ℝ) → Op d) (dt : P) (samples : Nat → (P → ℝ) → Nat) (psi : (P → ℝ) → Ket d)
    (stepCount : (P → ℝ) → Nat) (sweeps : List (SweepObj ℝ)) (targets : List (List P)) (hlen : targets.length = sweeps.length)
    (hsw : SweepsOk sweeps) (steps : List Ref) (h0 : ∀ r ∈ steps, r.id ≠ 0) (hc : ∀ j, Ref.copy j true ∉ steps) (fd : FloatDiv)
    (ratio : Nat → ℝ) (st : St P ℝ (Op d))
    (hr : Reachable (freeSampled H dt samples psi stepCount sweeps targets).pr 100 ratio (fun i => if i = 0 then steps else []) st)
    (hmany : ∃ q ∈ steps, 1 < samples q.id st.σ) (hpos : ∀ q ∈ steps, ∀ σ, 0 < samples q.id σ) :
    ∃ r ss' st', runSeqS (freeSampled H dt samples psi stepCount sweeps targets) fd 0 (fun _ => false) st = some (r, ss', st') ∧
      ∀ t, ValidIdx (axes sweeps) t → ∃ vals, Delivers sweeps t vals ∧ ∀ σ, σ = overwrite targets vals st.σ →
        ∃ x : List (Ket d × List (Ket d)), ∃ shown, nestedGet r t = some shown ∧ Shown (.list (x.map .atom)) shown ∧
          x.length = stepCount σ + 1 ∧ ∀ k ≤ stepCount σ, ∃ a, x[k]? = some a ∧
            a.1 = (fun s : Ket d => steps.foldl (fun (s : Ket d) q => unitaryOp (H q.id σ) (σ dt * ratio q.id) * s) s)^[k] (psi σ) ∧
            (k ≠ 0 → a.2.length = (steps.map fun q => samples q.id σ).sum) := by
  obtain ⟨r, ss', st', e, hss, -, -, -, hpt⟩ := C81_run_partial (freeSampled_nice H dt samples psi stepCount sweeps targets hlen steps h0 hc)
    hsw fd st hr (fun _ => false) (by simp) 0 (by simp [freeSampled])
  have hon : ss' 0 = true := (hss 0).2 (Or.inr ⟨by simp [freeSampled], by simp [freeSampled], by simpa [freeSampled] using hmany⟩)
  refine ⟨r, ss', st', e, fun t ht => ?_⟩
  obtain ⟨vals, val, x, shown, h1, h2⟩ := hpt t ht
  refine ⟨vals, h1, fun σ hσ => ?_⟩
  obtain ⟨hv, hx, h4, h5⟩ := h2 σ hσ
  simp only [hon, if_true] at hx
  refine ⟨x, shown, h4, h5, hx.1, fun k hk => ?_⟩
  obtain ⟨a, ha, hst⟩ := C81_independent _ _ val (fun j (s : Ket d) => unitaryOp (H j σ) (σ dt * ratio j) * s) steps (fun q hq => by
    have hval : val q.id = unitaryOp (H q.id σ) (σ dt * ratio q.id / (samples q.id σ : ℝ)) := hv.leaf q.id (by simpa [freeSampled] using h0 q hq)
    have hp : (samples q.id σ : ℝ) ≠ 0 := by exact_mod_cast (hpos q hq σ).ne'
    funext s
    show (fun s : Ket d => val q.id * s)^[samples q.id σ] s = _
    have it : ∀ (m : ℕ) (s : Ket d), (fun s : Ket d => val q.id * s)^[m] s = val q.id ^ m * s := by
      intro m
      induction m with
      | zero => intro s; simp
      | succ m ih => intro s; rw [Function.iterate_succ_apply, ih, pow_succ, Matrix.mul_assoc]
    rw [it, hval, Evol.unitaryOp_pow]
    congr 2
    field_simp) _ _ x hx k hk
  refine ⟨a, ha, hst, fun hk0 => ?_⟩
  obtain ⟨k, rfl⟩ : ∃ m, k = m + 1 := ⟨k - 1, by omega⟩
  obtain ⟨b, hb, hl, -⟩ := C81_counts _ _ val steps _ _ x hx k (show k < stepCount σ by omega)
  rw [hb] at ha
  cases ha
  exact hl

end

section
open Verif.Toolbox Matrix

/-- A second-order Trotter step A/2 B A/2 with three samples in A (the second A/2 is a copy) and a sweep over the step size: after forty
steps of size `t2` the state is the forty-fold product, and there are seven samples. -/
example (A B : Op 2) (psi : Ket 2) (t1 t2 : ℝ) (fd : FloatDiv) : ∃ r ss' st',
    runSeqS (freeSampled (P := Unit) (fun j _ => if j = 1 then A else B) () (fun j _ => if j = 1 then 3 else 1) (fun _ => psi) (fun _ => 40)
      [⟨[t1, t2], false⟩] [[()]]) fd 0 (fun _ => false)
      (init (fun _ => 0) (fun j => if j = 1 then 1 / 2 else 1) (fun i => if i = 0 then [.orig 1, .orig 2, .copy 1 false] else [])) =
        some (r, ss', st') ∧
    ∃ x : List (Ket 2 × List (Ket 2)), nestedGet r [1] = some (.list (x.map .atom)) ∧ ∃ a, x[40]? = some a ∧ a.2.length = 7 ∧
      a.1 = (fun s : Ket 2 => unitaryOp A (t2 * (1 / 2)) * (unitaryOp B (t2 * 1) * (unitaryOp A (t2 * (1 / 2)) * s)))^[40] psi := by
  obtain ⟨r, ss', st', e, h⟩ := C81_schroedinger (P := Unit) (fun j _ => if j = 1 then A else B) () (fun j _ => if j = 1 then 3 else 1)
    (fun _ => psi) (fun _ => 40) [⟨[t1, t2], false⟩] [[()]] rfl
    ⟨⟨_, _, rfl, rfl⟩, by
      intro j s hj n hn
      match j with
      | 0 => simp at hj; subst hj; simp [axes, axisOf] at hn; simp [← hn]
      | j + 1 => simp at hj, by simp [axes]⟩ [.orig 1, .orig 2, .copy 1 false] (by simp [Ref.id]) (by simp) fd
    (fun j => if j = 1 then 1 / 2 else 1) _ ⟨fun _ => 0, [], by simp, rfl⟩ ⟨.orig 1, by simp, by simp [Ref.id]⟩ (by simp [Ref.id])
  refine ⟨r, ss', st', e, ?_⟩
  obtain ⟨vals, hd, h⟩ := h [1] (.cons (by simp) .nil)
  obtain rfl : vals = [t2] := by
    obtain ⟨hl, hd⟩ := hd
    obtain ⟨i, hi, e1, -⟩ := hd 0 _ rfl
    simp [axisOf] at hi
    subst hi
    match vals, hl with
    | [a], _ => simp at e1; rw [e1]
  obtain ⟨x, shown, h4, h5, h6, h7⟩ := h _ rfl
  obtain ⟨a, h8, h9, h10⟩ := h7 40 le_rfl
  refine ⟨x, ?_, a, h8, by simpa [Ref.id] using h10 (by norm_num), ?_⟩
  · rw [h4, h5.2]
    intro y hy
    have : (x.map PyVal.atom).length = 1 := by rw [PyVal.list.inj hy]; rfl
    rw [List.length_map, h6] at this
    omega
  · rw [h9]
    simp [Ref.id, overwrite]

end

/-! ### Where it fails -/

/-- A protocol (0) of one or two free evolutions on a line: a whole step of evolution 1 adds 12, one of several samples the corresponding part;
parameter 0 is the number of samples of step 1, parameter 1 a multiple of its frequency.  Protocol 5 has protocol 0 as its only step. -/
def lineCfg (upds : Nat → List (Upd Nat Nat)) (sweeps : List (SweepObj Nat)) (targets : List (List Nat)) (protos : List Nat) :
    SCfg Nat Nat Nat Nat where
  pr := { alg := { one := 0, mul := fun a b => a + b, conj := id, mul_one := Nat.add_zero }, leaf := fun i => decide (i = 1),
          U := fun _ σ _ => 12 * σ 1 / σ 0, marks := fun _ _ => true, upds := upds, fixed := fun _ => false }
  lim := 100
  sweeps := sweeps
  targets := targets
  protos := protos
  act := fun u s => u + s
  init := fun _ _ => 0
  stepCount := fun _ => 1
  samples := fun j σ => if j = 1 then σ 0 else 1

def lineSteps : Nat → List Ref := fun i => if i = 0 then [.orig 1] else if i = 5 then [.orig 0] else []

/-- Sweeping the number of samples: if the protocol was not sampled before, the decision is made with the value from before the run, and
then a step with two samples goes half the way.  With the value two before the same sweep, all is well. -/
theorem C81_swept_samples :
    (runSeqS (lineCfg (fun _ => []) [⟨[1, 2], false⟩] [[0]] [0]) exactDiv 0 (fun _ => false) (init (fun _ => 1) (fun _ => 0) lineSteps)).map
        (fun x => (x.1, x.2.1 0)) =
      some (.list [.list [.atom (0, []), .atom (12, [])], .list [.atom (0, []), .atom (6, [])]], false) ∧
    (runSeqS (lineCfg (fun _ => []) [⟨[1, 2], false⟩] [[0]] [0]) exactDiv 0 (fun _ => false)
        (init (fun p => if p = 0 then 2 else 1) (fun _ => 0) lineSteps)).map (fun x => (x.1, x.2.1 0)) =
      some (.list [.list [.atom (0, []), .atom (12, [12])], .list [.atom (0, []), .atom (12, [6, 12])]], true) := by
  constructor <;> rfl

/-- Samples in the steps of a step are not noticed: the inner step goes half the way. -/
theorem C81_nested_samples :
    (runSeqS (lineCfg (fun _ => []) [] [] [5]) exactDiv 5 (fun _ => false) (init (fun p => if p = 0 then 2 else 1) (fun _ => 0) lineSteps)).map
        (fun x => (x.1, x.2.1 5)) = some (.list [.atom (0, []), .atom (6, [])], false) := rfl

/-- Sampling ignores the updates of the protocol itself: with one sample the update of the frequency takes effect, with two it does not. -/
theorem C81_updates_ignored :
    (runSeqS (lineCfg (fun i => if i = 0 then [⟨[1], 3⟩] else []) [] [] [0]) exactDiv 0 (fun _ => false)
        (init (fun _ => 1) (fun _ => 0) lineSteps)).map Prod.fst = some (.list [.atom (0, []), .atom (36, [])]) ∧
    (runSeqS (lineCfg (fun i => if i = 0 then [⟨[1], 3⟩] else []) [] [] [0]) exactDiv 0 (fun _ => false)
        (init (fun p => if p = 0 then 2 else 1) (fun _ => 0) lineSteps)).map Prod.fst = some (.list [.atom (0, []), .atom (12, [6, 12])]) := by
  constructor <;> rfl

/-- Sampling is never switched off: after a run with two samples, a run with one sample still records the samples; an unused simulation with
the same parameters does not. -/
theorem C81_stays_on :
    ((runSeqS (lineCfg (fun _ => []) [] [] [0]) exactDiv 0 (fun _ => false) (init (fun p => if p = 0 then 2 else 1) (fun _ => 0) lineSteps)).bind
        fun x => (runSeqS (lineCfg (fun _ => []) [] [] [0]) exactDiv 0 x.2.1 (assign (lineCfg (fun _ => []) [] [] [0]).pr 0 1 x.2.2)).map Prod.fst) =
      some (.list [.atom (0, []), .atom (12, [12])]) ∧
    (runSeqS (lineCfg (fun _ => []) [] [] [0]) exactDiv 0 (fun _ => false) (init (fun _ => 1) (fun _ => 0) lineSteps)).map Prod.fst =
      some (.list [.atom (0, []), .atom (12, [])]) := by
  constructor <;> rfl

end Verif.Whole
