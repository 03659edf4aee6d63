import Verif.Evol.Lemmas
import Verif.Toolbox.Vec
import Mathlib.LinearAlgebra.Matrix.Notation
import Mathlib.Tactic.Ring

/-!
# C07, C08: content of the trajectories and the callbacks of one sweep point
-/
namespace Verif.Evol

variable {S : Type}

/-- Specification: `x 0, x 1, ...` is the trajectory started in `s` under the steps `f 0, f 1, ...`. -/
def IsTrajectory (f : Nat → S → S) (s : S) (x : Nat → S) : Prop :=
  x 0 = s ∧ ∀ k, x (k + 1) = f k (x k)

theorem isTrajectory_stepsFrom (act : Nat → Nat → S → S) (i : Nat) (s : S) (x : Nat → S)
    (hx : IsTrajectory (fun k => act k i) s x) : ∀ k, stepsFrom act i k 0 s = x k := by
  intro k
  induction k with
  | zero => exact hx.1.symm
  | succ k ih => rw [stepsFrom_succ, ih, Nat.zero_add, hx.2]

/-- **C07** (general form).  The states stored under the key of a protocol that keeps its states are exactly the points
`0..stepCount` of its trajectory; there are as many as points in `timeList`. -/
theorem C07_trajectory (act : Nat → Nat → S → S) (ps : List Proto) (n : Nat) (init cur0 : Nat → S) (p : Proto)
    (hnd : (ps.map (·.id)).Nodup) (hp : p ∈ ps) (hkeep : p.keep = true)
    (hkey : ∀ q ∈ ps, q.keep = true → q.key = p.key → q = p)
    (x : Nat → S) (hx : IsTrajectory (fun k => act k p.id) (init p.id) x) :
    statesOf p.key (runPoint act true ps n init cur0).stored = (List.range (n + 1)).map x
      ∧ (statesOf p.key (runPoint act true ps n init cur0).stored).length = (timeListSteps n).length := by
  have hid : p.id ∈ ps.map (·.id) := List.mem_map_of_mem hp
  have hown : OwnsKey ps p := ⟨hp, hkeep, hkey⟩
  have key : statesOf p.key (runPoint act true ps n init cur0).stored = (List.range (n + 1)).map x := by
    simp only [runPoint, timeEvolDefault, if_true]
    rw [loop_states act ps p hnd hown]
    simp only [computeAll_stored, computeAll_cur, List.nil_append]
    rw [statesOf_storeStates _ _ _ hnd hown, if_pos hid, List.range_succ_eq_map, List.map_cons, List.map_map, hx.1]
    simp only [List.singleton_append, List.cons.injEq, true_and]
    apply List.map_congr_left
    intro k _
    exact isTrajectory_stepsFrom act p.id _ x hx (k + 1)
  exact ⟨key, by rw [key]; simp [timeListSteps]⟩

open Matrix Verif.Toolbox

/-- The closed branch of `timeEvolBase` (`modularSweep.py:161`): `currentState = protocol.unitary() @ currentState`. -/
def closedStep {d : Nat} (U : Op d) (s : Ket d) : Ket d := U * s

/-- The open branch of `timeEvolBase` (`modularSweep.py:149-152`): `vec2Mat(protocol.unitary() @ mat2Vec(currentState))`. -/
def openStep {d : Nat} (W : Op (d * d)) (rho : Op d) : Op d := vec2Mat (W * mat2Vec rho)

/-- **C07** for closed systems: the `k`-th stored state is `U^k` applied to the initial state. -/
theorem C07_closed {d : Nat} (U : Nat → Op d) (ps : List Proto) (n : Nat) (init cur0 : Nat → Ket d) (p : Proto)
    (hnd : (ps.map (·.id)).Nodup) (hp : p ∈ ps) (hkeep : p.keep = true)
    (hkey : ∀ q ∈ ps, q.keep = true → q.key = p.key → q = p) :
    statesOf p.key (runPoint (fun _ i => closedStep (U i)) true ps n init cur0).stored
      = (List.range (n + 1)).map (fun k => (U p.id) ^ k * init p.id) := by
  refine (C07_trajectory _ ps n init cur0 p hnd hp hkeep hkey (fun k => (U p.id) ^ k * init p.id) ⟨?_, ?_⟩).1
  · simp
  · intro k
    simp only [closedStep, pow_succ', Matrix.mul_assoc]

/-- **C07** for open systems: the `k`-th stored state is the `k`-th power of the superoperator applied to the vectorised
initial density matrix. -/
theorem C07_open {d : Nat} (W : Nat → Op (d * d)) (ps : List Proto) (n : Nat) (init cur0 : Nat → Op d) (p : Proto)
    (hnd : (ps.map (·.id)).Nodup) (hp : p ∈ ps) (hkeep : p.keep = true)
    (hkey : ∀ q ∈ ps, q.keep = true → q.key = p.key → q = p) :
    statesOf p.key (runPoint (fun _ i => openStep (W i)) true ps n init cur0).stored
      = (List.range (n + 1)).map (fun k => vec2Mat ((W p.id) ^ k * mat2Vec (init p.id))) := by
  refine (C07_trajectory _ ps n init cur0 p hnd hp hkeep hkey
    (fun k => vec2Mat ((W p.id) ^ k * mat2Vec (init p.id))) ⟨?_, ?_⟩).1
  · simp [C39_vec2Mat_mat2Vec]
  · intro k
    simp only [openStep, pow_succ', Matrix.mul_assoc, C39_mat2Vec_vec2Mat]

/-- Two protocols of one system and one protocol of another system; the third discards its states. -/
def exProtos : List Proto :=
  [⟨10, 1, "trotterResults", true⟩, ⟨11, 1, "sys1Results", true⟩, ⟨12, 2, "other", false⟩]

/-- The hypotheses of `C07_closed` hold for `exProtos` with a two-dimensional system. -/
example : statesOf "sys1Results"
      (runPoint (fun _ i => closedStep (if i = 11 then !![0, 1; 1, 0] else (1 : Op 2))) true exProtos 3
        (fun _ => !![1; 0]) (fun _ => 0)).stored
    = (List.range 4).map (fun k => (!![0, 1; 1, 0] : Op 2) ^ k * (!![1; 0] : Ket 2)) :=
  C07_closed (fun i => if i = 11 then !![0, 1; 1, 0] else (1 : Op 2)) exProtos 3 (fun _ => !![1; 0]) (fun _ => 0)
    ⟨11, 1, "sys1Results", true⟩ (by decide) (by decide) rfl (by decide)

example : statesOf "trotterResults"
      (runPoint (fun _ _ => openStep (d := 2) (preSO !![0, 1; 1, 0])) true exProtos 2
        (fun _ => !![1, 0; 0, 0]) (fun _ => 0)).stored
    = (List.range 3).map (fun k => vec2Mat ((preSO !![0, 1; 1, 0]) ^ k * mat2Vec !![1, 0; 0, 0])) :=
  C07_open (fun _ => preSO !![0, 1; 1, 0]) exProtos 2 (fun _ => !![1, 0; 0, 0]) (fun _ => 0)
    ⟨10, 1, "trotterResults", true⟩ (by decide) (by decide) rfl (by decide)

/-! ## C08 -/


/-- Specification: `x i` is the trajectory of protocol `i`, for every protocol of the simulation. -/
def AreTrajectories (act : Nat → Nat → S → S) (ps : List Proto) (init : Nat → S) (x : Nat → Nat → S) : Prop :=
  ∀ p ∈ ps, IsTrajectory (fun k => act k p.id) (init p.id) (x p.id)

theorem curFrom_eq (act : Nat → Nat → S → S) (ps : List Proto) (init cur0 : Nat → S) (x : Nat → Nat → S)
    (hnd : (ps.map (·.id)).Nodup) (hx : AreTrajectories act ps init x) (p : Proto) (hp : p ∈ ps) (k : Nat) :
    curFrom act ps k 0 (fun i => if i ∈ ps.map (·.id) then init i else cur0 i) p.id = x p.id k := by
  have hi : p.id ∈ ps.map (·.id) := List.mem_map_of_mem hp
  rw [curFrom_apply act ps hnd _ hi, if_pos hi]
  exact isTrajectory_stepsFrom act p.id _ _ (hx p hp) k

/-- **C08**: the simulation's `compute` is called exactly `stepCount+1` times, the `k`-th time with all states at time `k`. -/
theorem C08_sim_compute (act : Nat → Nat → S → S) (ps : List Proto) (n : Nat) (init cur0 : Nat → S)
    (x : Nat → Nat → S) (hnd : (ps.map (·.id)).Nodup) (hx : AreTrajectories act ps init x) :
    (runPoint act true ps n init cur0).trace.filter (isCompute .sim)
      = (List.range (n + 1)).map (fun k => .compute .sim (ps.map fun p => x p.id k)) := by
  rw [runPoint_filter act ps n init cur0 _ (fun cur => .compute .sim (ps.map fun p => cur p.id)) (fun _ => rfl)
    (fun _ => rfl) (fun _ => rfl) (fun st => computeAll_filter_sim ps st)]
  apply List.map_congr_left
  intro k _
  congr 1
  exact List.map_congr_left fun p hp => curFrom_eq act ps init cur0 x hnd hx p hp k

/-- **C08**: the `compute` of every protocol is called exactly `stepCount+1` times, the `k`-th time with its state at time
`k`. -/
theorem C08_protocol_compute (act : Nat → Nat → S → S) (ps : List Proto) (n : Nat) (init cur0 : Nat → S)
    (x : Nat → Nat → S) (hnd : (ps.map (·.id)).Nodup) (hx : AreTrajectories act ps init x) (p : Proto) (hp : p ∈ ps) :
    (runPoint act true ps n init cur0).trace.filter (isCompute (.pro p.id))
      = (List.range (n + 1)).map (fun k => .compute (.pro p.id) [x p.id k]) := by
  rw [runPoint_filter act ps n init cur0 _ (fun cur => .compute (.pro p.id) [cur p.id]) (fun _ => rfl)
    (fun _ => rfl) (fun _ => rfl) (fun st => computeAll_filter_pro ps hnd _ (List.mem_map_of_mem hp) st)]
  apply List.map_congr_left
  intro k _
  rw [curFrom_eq act ps init cur0 x hnd hx p hp k]

/-- **C08**: the `compute` of every distinct system is called exactly `stepCount+1` times (not once per protocol), the
`k`-th time with the state at time `k` of the first protocol that evolves it. -/
theorem C08_system_compute (act : Nat → Nat → S → S) (ps : List Proto) (n : Nat) (init cur0 : Nat → S)
    (x : Nat → Nat → S) (hnd : (ps.map (·.id)).Nodup) (hx : AreTrajectories act ps init x)
    (pre post : List Proto) (q : Proto) (hps : ps = pre ++ q :: post) (hfirst : ∀ p ∈ pre, p.sys ≠ q.sys) :
    (runPoint act true ps n init cur0).trace.filter (isCompute (.sys q.sys))
      = (List.range (n + 1)).map (fun k => .compute (.sys q.sys) [x q.id k]) := by
  have hfind : ps.find? (fun p => p.sys = q.sys) = some q := by
    rw [hps, List.find?_append, List.find?_eq_none.mpr (by simpa using hfirst)]
    simp
  have hq : q ∈ ps := by simp [hps]
  rw [runPoint_filter act ps n init cur0 _ (fun cur => .compute (.sys q.sys) [cur q.id]) (fun _ => rfl)
    (fun _ => rfl) (fun _ => rfl) (fun st => computeAll_filter_sys ps q.sys q hfind st)]
  apply List.map_congr_left
  intro k _
  rw [curFrom_eq act ps init cur0 x hnd hx q hq k]

/-- **C08**: every run consists of pre callbacks, then computes and evolution steps, then post callbacks; the simulation,
every protocol and every distinct system has exactly one pre and one post callback, nobody else has one.  Holds with and
without evolution function. -/
theorem C08_pre_post_once (act : Nat → Nat → S → S) (b : Bool) (ps : List Proto) (n : Nat) (init cur0 : Nat → S)
    (hnd : (ps.map (·.id)).Nodup) :
    ∃ a m z : List (Event S), (runPoint act b ps n init cur0).trace = a ++ m ++ z
      ∧ (∀ e ∈ a, ∃ w, e = .pre w) ∧ (∀ e ∈ m, (∃ w l, e = .compute w l) ∨ ∃ k, e = .evolve k)
      ∧ (∀ e ∈ z, ∃ w, e = .post w)
      ∧ ∀ w : Who, a.countP (isPre w) = (if w = .sim ∨ (∃ p ∈ ps, w = .pro p.id ∨ w = .sys p.sys) then 1 else 0)
          ∧ z.countP (isPost w) = (if w = .sim ∨ (∃ p ∈ ps, w = .pro p.id ∨ w = .sys p.sys) then 1 else 0) := by
  have hcnt : ∀ (ev : Who → Event S) (f : Who → Event S → Bool) (_ : ∀ w w', f w (ev w') = decide (w' = w)) (w : Who),
      ([ev .sim] ++ ps.map (fun p => ev (.pro p.id)) ++ sysCalls ev [] ps).countP (f w)
        = if w = .sim ∨ (∃ p ∈ ps, w = .pro p.id ∨ w = .sys p.sys) then 1 else 0 := by
    intro ev f hf w
    have hsys0 : ∀ w, (∀ s, w ≠ .sys s) → (sysCalls ev [] ps).countP (f w) = 0 := by
      intro w hw
      rw [List.countP_eq_zero]
      intro e he
      refine sysCalls_forall ev (fun e => ¬ f w e = true) (fun s => ?_) ps [] e he
      simp [hf, (hw s).symm]
    have hpro : ∀ w, (ps.map (fun p => ev (.pro p.id))).countP (f w)
        = if ∃ p ∈ ps, w = .pro p.id then 1 else 0 := by
      intro w
      rw [List.countP_map]
      by_cases h : ∃ p ∈ ps, w = .pro p.id
      · obtain ⟨p, hp, rfl⟩ := h
        have hc : List.count p.id (ps.map (·.id)) = 1 := List.count_eq_one_of_mem hnd (List.mem_map_of_mem hp)
        rw [List.count_eq_countP, List.countP_map] at hc
        rw [if_pos ⟨p, hp, rfl⟩, ← hc]
        apply List.countP_congr
        intro q _
        simp [hf]
      · rw [if_neg h, List.countP_eq_zero]
        intro q hq
        simp only [Function.comp, hf, decide_eq_true_eq]
        exact fun e => h ⟨q, hq, e.symm⟩
    rw [List.countP_append, List.countP_append, hpro]
    cases w with
    | sim => rw [hsys0 _ (by simp)]; simp [hf]
    | pro i => rw [hsys0 _ (by simp)]; simp [hf]
    | sys s =>
      rw [sysCalls_count ev f hf]
      simp only [hf, List.countP_cons, List.countP_nil]
      simp only [reduceCtorEq, and_false, exists_false, if_false, decide_false, false_or, Who.sys.injEq,
        List.not_mem_nil, List.mem_map, Bool.false_eq_true]
      have : (∃ a ∈ ps, a.sys = s) ↔ (∃ p ∈ ps, s = p.sys) :=
        ⟨fun ⟨a, h, e⟩ => ⟨a, h, e.symm⟩, fun ⟨a, h, e⟩ => ⟨a, h, e.symm⟩⟩
      simp [this]
  have hall : ∀ (ev : Who → Event S), ∀ e ∈ [ev .sim] ++ ps.map (fun p => ev (.pro p.id)) ++ sysCalls ev [] ps,
      ∃ w, e = ev w := by
    intro ev e he
    simp only [List.mem_append, List.mem_singleton, List.mem_map] at he
    rcases he with (rfl | ⟨p, _, rfl⟩) | he
    · exact ⟨_, rfl⟩
    · exact ⟨_, rfl⟩
    · exact sysCalls_forall ev (fun e => ∃ w, e = ev w) (fun s => ⟨_, rfl⟩) ps [] e he
  simp only [runPoint]
  obtain ⟨m, hm, hm'⟩ := timeEvol_mid act b ps n
    { cur := if b then fun i => if i ∈ ps.map (·.id) then init i else cur0 i else cur0, stored := [],
      trace := [] ++ [.pre .sim] ++ ps.map (fun p => .pre (.pro p.id)) ++ sysCalls .pre [] ps }
  refine ⟨_, m, [.post .sim] ++ ps.map (fun p => .post (.pro p.id)) ++ sysCalls .post [] ps, ?_,
    hall .pre, ?_, hall .post, fun w => ⟨hcnt .pre isPre (fun _ _ => rfl) w, hcnt .post isPost (fun _ _ => rfl) w⟩⟩
  · rw [hm]; simp
  · intro e he
    have := hm' e he
    cases e with
    | pre w => simp [isMid] at this
    | post w => simp [isMid] at this
    | compute w l => exact .inl ⟨w, l, rfl⟩
    | evolve k => exact .inr ⟨k, rfl⟩

/-- A concrete case: `exProtos` with integer "states" and step `s ↦ s + i`. -/
example : (runPoint (fun _ i s => s + i) true exProtos 2 (fun _ => 0) (fun _ => 7)).trace.filter (isCompute (.sys 1))
    = [.compute (.sys 1) [0], .compute (.sys 1) [10], .compute (.sys 1) [20]] :=
  C08_system_compute (fun _ i s => s + i) exProtos 2 (fun _ => 0) (fun _ => 7) (fun i k => k * i) (by decide)
    (by intro p _; exact ⟨by simp, fun k => by simp [Nat.succ_mul]⟩) [] [⟨11, 1, "sys1Results", true⟩, ⟨12, 2, "other", false⟩]
    ⟨10, 1, "trotterResults", true⟩ rfl (by simp)

end Verif.Evol
