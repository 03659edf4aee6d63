import Verif.TimeDep.Clock

/-!
# C73: small simulations with time dependent terms, and where the claim fails
-/
namespace Verif.TimeDep
open Verif.Sweep Verif.Cache
open Verif.Whole (Nice SweepsOk Reachable overwrite)

/-- Heap of the simulations: 0 is run, with the given step size; the simulations in `bound` are bound to it. -/
def heap (dt : Nat) (bound : List Nat) : Bound.Heap Nat where
  val := fun s k => if s = 0 ∧ k = .step then some dt else none
  bnd := fun s _ => if s ∈ bound then .to 0 else .none
  tb := fun s => if s ∈ bound then some 0 else none
  dep := fun s => if s = 0 then bound else []

/-- A protocol (0) of a composite system with two steps: a free evolution of the composite (1), and one of a sub-system (2).  Attribute `true` is
the frequency of the sub-system, a term of which depends on time; `false` is a coupling.  The simulation of the protocol's system is `1`, that of the
sub-system `sub`; those in `bound` are bound to the running one. -/
def kicked (f : (Bool → Nat) → Nat → Nat) (sub : Nat) (bound : List Nat) (sweeps : List (SweepObj Nat)) (targets : List (List Bool)) :
    Cfg Bool Nat Nat Nat where
  pr := { alg := { one := 1, mul := fun a b => a * b, conj := id, mul_one := Nat.mul_one }, leaf := fun i => decide (i ≠ 0),
          U := fun i σ _ => if i = 1 then σ true + σ false else σ true, marks := fun _ _ => true, upds := fun _ => [], fixed := fun _ => false }
  lim := 100
  sweeps := sweeps
  targets := targets
  protos := [0]
  act := fun u s => u + s
  init := fun _ _ => 0
  stepCount := fun _ => 3
  clock := natClock
  sims := fun _ => heap 2 bound
  index := fun _ => -1
  run := 0
  simOf := fun i => if i = 2 then sub else 1
  fns := fun _ => [(true, f)]

def kickedSteps : Nat → List Ref := fun i => if i = 0 then [.orig 1, .orig 2] else []

theorem kicked_nice (f : (Bool → Nat) → Nat → Nat) (sub : Nat) (bound : List Nat) (sweeps : List (SweepObj Nat)) (targets : List (List Bool))
    (hl : targets.length = sweeps.length) : Nice (kicked f sub bound sweeps targets).toCfg kickedSteps (fun i => if i = 0 then 1 else 0) where
  tame := ⟨fun _ => rfl, fun _ _ => rfl, fun _ => ⟨[], rfl, List.nodup_nil⟩, fun i j h => by
    simp only [kickedSteps] at h
    split at h <;> simp at h⟩
  covers := by
    refine ⟨fun i _ σ τ r h => ?_, fun i _ r _ p _ => rfl, fun i hi r hr => ?_⟩
    · rw [show σ = τ from funext fun p => h p rfl]
    · obtain rfl : i = 0 := by simpa [kicked] using hi
      simp only [kickedSteps, if_true, List.mem_cons, List.not_mem_nil, or_false] at hr
      rcases hr with rfl | rfl <;> simp [Ref.id]
  deep := by intro i _; simp only [kicked]; split <;> omega
  nodup := by simp [kicked]
  targets := hl

theorem kicked_timed {f : (Bool → Nat) → Nat → Nat} {sub : Nat} {bound : List Nat} {sweeps : List (SweepObj Nat)} {targets : List (List Bool)}
    {q : Bool} : Timed (kicked f sub bound sweeps targets) q ↔ q = true := by
  simp [Timed, kicked, eq_comm]

/-- If the simulations of both systems are bound to the running one and the function uses the coupling and the time only, the restrictions hold. -/
theorem kicked_ok (f : Nat → Nat → Nat) (sweeps : List (SweepObj Nat)) (targets : List (List Bool)) :
    TimeOk (kicked (fun σ t => f (σ false) t) 3 [1, 3] sweeps targets) kickedSteps (fun _ => 2) where
  own := fun _ => rfl
  leads := ⟨1, fun σ => ⟨rfl, fun i _ j _ _ => ⟨1, .up (b := 0) (by simp only [kicked, heap]; split <;> simp) (.here 0), by simp [kicked]⟩⟩⟩
  dtOff := fun _ _ _ => rfl
  nodup := fun _ _ => by simp [kicked]
  reads := by
    intro i _ g hg σ τ t ha
    obtain rfl : g = (true, fun σ t => f (σ false) t) := by simpa [kicked] using hg
    have := ha false (by rw [kicked_timed]; simp)
    simp [this]
  incl := fun _ _ _ _ f hf => hf
  uses := by
    intro i _ j _ _ p _ hp
    rw [kicked_timed] at hp
    simp [kicked, hp]
  initOff := fun _ _ _ _ => rfl
  countOff := fun _ _ _ => rfl

theorem kicked_sweeps (v : List Nat) (hv : v.length = 2) : SweepsOk [(⟨v, false⟩ : SweepObj Nat)] where
  first := ⟨_, _, rfl, rfl⟩
  long := by
    intro j s hj n hn
    match j with
    | 0 => simp at hj; subst hj; simp [axes, axisOf] at hn; simp [← hn]
    | j + 1 => simp at hj
  few := by simp [axes, hv]

/-- A sweep of the coupling over two values, with a frequency `coupling * t`. -/
example (fd : FloatDiv) (a b : Nat) (st : St Bool Nat Nat) (hr : Reachable (kicked (fun σ t => σ false * t) 3 [1, 3] [⟨[a, b], false⟩] [[false]]).pr
    100 (fun _ => 1) kickedSteps st) : ∃ r st', ∃ x : List Nat, runSeq (kicked (fun σ t => σ false * t) 3 [1, 3] [⟨[a, b], false⟩] [[false]]) fd 0 st = some (r, st') ∧
      nestedGet r [1] = some (.list (x.map .atom)) ∧ x[0]? = some 0 ∧ x[1]? = some ((b * 2) * ((b * 2 + b) * 1)) := by
  obtain ⟨r, st', e, -, -, -, h⟩ := C73_run_partial (kicked_nice _ 3 [1, 3] [⟨[a, b], false⟩] [[false]] rfl)
    (kicked_ok (fun c t => c * t) [⟨[a, b], false⟩] [[false]]) (kicked_sweeps [a, b] rfl) fd st hr 0 (by simp [kicked])
  obtain ⟨vals, x, shown, hd, hx, h1, h2⟩ := h [1] (.cons (by simp) .nil)
  obtain rfl : vals = [b] := by
    obtain ⟨hl, hd⟩ := hd
    obtain ⟨i, hi, e1, -⟩ := hd 0 _ rfl
    simp [axisOf] at hi
    subst hi
    match vals, hl with
    | [c], _ => simp at e1; rw [e1]
  refine ⟨r, st', x, e, ?_, hx.2.1, ?_⟩
  · rw [h1, h2.2]
    intro y hy
    have : (x.map PyVal.atom).length = 1 := by rw [PyVal.list.inj hy]; rfl
    rw [List.length_map, hx.1] at this
    simp [kicked] at this
  · obtain ⟨val, hv, hx1⟩ := hx.2.2 0 (by simp [kicked]) _ hx.2.1
    rw [hx1, hv.comp 0 rfl]
    have e1 : val 1 = b * 2 + b := hv.leaf 1 rfl
    have e2 : val 2 = b * 2 := hv.leaf 2 rfl
    simp [kicked, kickedSteps, init, Ref.id, e1, e2]

/-- The states with frequency `t`, coupling 0 and step size 2: the unitaries are 2·2, 4·4 and 6·6. -/
theorem kicked_right : (evolveLoop (kicked (fun _ t => t) 3 [1, 3] [] []) 0 3 (fun _ => 0) (init (fun _ => 0) (fun _ => 1) kickedSteps)).map
    (fun x => (x.1.map fun c => c 0, x.2.σ true)) = some ([4, 20, 56], 6) := rfl

/-- C73 is false: the simulation of a sub-system is not bound to that of the composite system, so a free evolution of the sub-system in a protocol of
the composite gets time 0, which also is the value left behind for everything that comes later.  (The unitary of the composite's step is
still right, because its functions are called before it; here the product is 0.) -/
theorem C73_sub_system_step : (evolveLoop (kicked (fun _ t => t) 3 [1] [] []) 0 3 (fun _ => 0) (init (fun _ => 0) (fun _ => 1) kickedSteps)).map
    (fun x => (x.1.map fun c => c 0, x.2.σ true)) = some ([0, 0, 0], 0) := rfl

/-- C73 is false: a function that uses the attribute it assigns is not called once per step.  Adding one per call, the frequency is 4 after the
first step and 12 after three, and the two steps of the protocol see different values. -/
theorem C73_called_often : (evolveLoop (kicked (fun σ _ => σ true + 1) 3 [1, 3] [] []) 0 3 (fun _ => 0) (init (fun _ => 0) (fun _ => 1) kickedSteps)).map
    (fun x => (x.1.map fun c => c 0, x.2.σ true)) = some ([12, 68, 200], 12) := rfl

end Verif.TimeDep
