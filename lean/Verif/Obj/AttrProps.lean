import Verif.Obj.Attr
import Mathlib.Data.List.Basic

/-!
C74: attributes of the internal simulation can be used through the object.
-/

namespace Verif.Obj

variable {S V : Type}

/-- Slots and properties with a setter. -/
def settable : Option (String × Kind) → Bool
  | some (_, .slot) => true
  | some (_, .rw) => true
  | _ => false

/-- All names with an entry in the class or one of its bases. -/
def namesOf (c : String) : List String :=
  (mro classes c).flatMap fun d =>
    d.slots.map (mangle d.name) ++ d.props.map (fun p => mangle d.name p.1) ++ d.attrs.map (mangle d.name)

theorem entry_mem {k : String} {d : ClassDef} {x} (h : entry k d = some x) :
    k ∈ d.slots.map (mangle d.name) ++ d.props.map (fun p => mangle d.name p.1) ++ d.attrs.map (mangle d.name) := by
  unfold entry at h
  split at h
  · rename_i hc
    simp only [List.mem_append]
    exact .inl (.inl (by simpa using hc))
  · split at h
    · rename_i p hp
      have h1 := List.mem_of_find?_eq_some hp
      have h2 := List.find?_some hp
      simp only [List.mem_append, List.mem_map]
      exact .inl (.inr ⟨p, h1, by simpa using h2⟩)
    · split at h
      · rename_i hc
        simp only [List.mem_append]
        exact .inr (by simpa using hc)
      · simp at h

theorem lookup_mem {c k : String} {x} (h : lookup c k = some x) : k ∈ namesOf c := by
  unfold lookup at h
  obtain ⟨d, hd, he⟩ := List.exists_of_findSome?_eq_some h
  exact List.mem_flatMap.2 ⟨d, hd, entry_mem he⟩

/-- The names that a class defines without making them assignable although the simulation has them as assignable. -/
theorem shadowed : ∀ c ∈ simComps, ∀ k ∈ namesOf c,
    settable (lookup c k) = false → settable (lookup "Simulation" k) = true →
    (k = "_initialStateInput" ∧ lookup c k = some ("QSimComp", .ro)) ∨
      (c = "QSimComp" ∧ k = "initialState" ∧ lookup c k = some ("QSimComp", .ro)) := by
  decide +kernel

theorem plainSet_of_settable (B : Bodies S V) (side : Side) {c k : String} (h : settable (lookup c k) = true) (v : V)
    (s : S) : ∃ d kd, lookup c k = some (d, kd) ∧ plainSet B side c k v s = B.set side d k v s := by
  unfold plainSet
  match hl : lookup c k with
  | some (d, .slot) => exact ⟨d, _, rfl, rfl⟩
  | some (d, .rw) => exact ⟨d, _, rfl, rfl⟩
  | some (_, .ro) => simp [hl, settable] at h
  | some (_, .cls) => simp [hl, settable] at h
  | none => simp [hl, settable] at h

theorem plainSet_of_not (B : Bodies S V) (side : Side) {c k : String} (h : settable (lookup c k) = false) (v : V)
    (s : S) : plainSet B side c k v s = (.error .attribute, s) := by
  unfold plainSet
  match hl : lookup c k with
  | some (d, .slot) => simp [hl, settable] at h
  | some (d, .rw) => simp [hl, settable] at h
  | some (_, .ro) => rfl
  | some (_, .cls) => rfl
  | none => rfl

theorem setA_of_not (B : Bodies S V) {c k : String} (h : settable (lookup c k) = false) (v : V) (s : S) :
    setA B c k v s = simSet B k v s := by
  unfold setA
  rw [plainSet_of_not B .own h v s]
  match h2 : simSet B k v s with
  | (.ok _, _) => simp [h2]
  | (.error .attribute, _) => simp [h2]
  | (.error (.other _), _) => simp [h2]

theorem getA_of_none (B : Bodies S V) {c k : String} (h : lookup c k = none) (s : S) :
    getA B c k s = simGet B k s := by
  unfold getA
  have : plainGet B .own c k s = (.error .attribute, s) := by unfold plainGet; rw [h]
  rw [this]
  match h2 : simGet B k s with
  | (.ok _, _) => simp [h2]
  | (.error .attribute, _) => simp [h2]
  | (.error (.other _), _) => simp [h2]

/-- The parameters of the simulation that none of the classes defines itself, and the class that defines them. -/
def parameters : List (String × String) :=
  [("totalTime", "timeBase"), ("stepSize", "timeBase"), ("stepCount", "timeBase"), ("samples", "timeBase"),
    ("delStates", "stateBase"), ("initialStateSystem", "stateBase"), ("Sweep", "Simulation"),
    ("evolFunc", "Simulation")]

theorem parameters_lookup : ∀ c ∈ simComps, ∀ p ∈ parameters,
    lookup c p.1 = none ∧ (lookup "Simulation" p.1 = some (p.2, .rw) ∨ lookup "Simulation" p.1 = some (p.2, .slot)) := by
  decide +kernel

/-- For every class with an internal simulation, reading and assigning one of the parameters of the simulation through
the object is reading and assigning it on the simulation, whatever getters and setters do and whether or not they
raise. -/
theorem C74_parameters (B : Bodies S V) {c : String} (hc : c ∈ simComps) {k d : String} (hk : (k, d) ∈ parameters)
    (v : V) (s : S) :
    setA B c k v s = B.set .sim d k v s ∧ getA B c k s = B.get .sim d k s := by
  obtain ⟨h1, h2⟩ := parameters_lookup c hc (k, d) hk
  simp only at h1 h2
  constructor
  · rw [setA_of_not B (by rw [h1]; rfl)]
    unfold simSet plainSet
    rcases h2 with h2 | h2 <;> rw [h2]
  · rw [getA_of_none B h1]
    unfold simGet plainGet
    rcases h2 with h2 | h2 <;> rw [h2]

example : ("xGate" ∈ simComps ∧ "Qubit" ∈ simComps ∧ "compQSystem" ∈ simComps) ∧
    setA protoBodies "qProtocol" "totalTime" (.num 5) ⟨.none, .obj 0, [], [], 0, 0⟩ =
      (.ok (), ⟨.none, .obj 0, [], [], 5, 0⟩) := by decide +kernel

/-- The attributes of the object itself come first: if the class can store the attribute and the setter does not end with
an `AttributeError`, the simulation is not asked. -/
theorem C74_own_first (B : Bodies S V) {c k d : String} {kd : Kind} (hl : lookup c k = some (d, kd)) (s : S) :
    (∀ v, kd = .slot ∨ kd = .rw → (B.set .own d k v s).1 ≠ .error .attribute →
      setA B c k v s = B.set .own d k v s) ∧
    ((B.get .own d k s).1 ≠ .error .attribute → getA B c k s = B.get .own d k s) := by
  constructor
  · intro v hkd hne
    have hp : plainSet B .own c k v s = B.set .own d k v s := by
      unfold plainSet
      rcases hkd with rfl | rfl <;> rw [hl]
    unfold setA
    rw [hp]
    match h2 : B.set .own d k v s with
    | (.ok _, _) => rfl
    | (.error .attribute, _) => exact absurd (by rw [h2]) hne
    | (.error (.other _), _) => rfl
  · intro hne
    have hp : plainGet B .own c k s = B.get .own d k s := by unfold plainGet; rw [hl]
    unfold getA
    rw [hp]
    match h2 : B.get .own d k s with
    | (.ok _, _) => rfl
    | (.error .attribute, _) => exact absurd (by rw [h2]) hne
    | (.error (.other _), _) => rfl

example : lookup "qProtocol" "superSys" = some ("genericProtocol", .rw) ∧
    setA protoBodies "qProtocol" "superSys" (.obj 7) ⟨.none, .obj 0, [], [], 0, 0⟩ =
      (.ok (), ⟨.obj 7, .obj 0, [], [], 0, 0⟩) := by decide +kernel

/-- A name that neither the class nor `Simulation` has is an `AttributeError` for reading and for assigning, and nothing
is changed; in a list of keywords it ends the assignments. -/
theorem C74_unknown (B : Bodies S V) {c k : String} (h1 : lookup c k = none) (h2 : lookup "Simulation" k = none)
    (v : V) (r : List (String × V)) (s : S) :
    setA B c k v s = (.error .attribute, s) ∧ getA B c k s = (.error .attribute, s) ∧
      setKwargs B c ((k, v) :: r) s = (.error .attribute, s) := by
  have hs : setA B c k v s = (.error .attribute, s) := by
    rw [setA_of_not B (by rw [h1]; rfl)]
    exact plainSet_of_not B .sim (by rw [h2]; rfl) v s
  refine ⟨hs, ?_, ?_⟩
  · rw [getA_of_none B h1]
    unfold simGet plainGet
    rw [h2]
  · unfold setKwargs
    rw [hs]

example : setKwargs protoBodies "freeEvolution" [("totalTime", .num 3), ("totaltime", .num 4), ("stepSize", .num 1)]
    ⟨.none, .obj 0, [], [], 0, 0⟩ = (.error .attribute, ⟨.none, .obj 0, [], [], 3, 0⟩) := by decide +kernel

/-- Where an assignment ends up.  If no setter of the class raises an `AttributeError`, every accepted assignment is
made either by the setter of the object or by the setter of its simulation, and the latter only for names that the class
does not have, or for the (initial state and its input) whose getters read the simulation's. -/
theorem C74_where (B : Bodies S V) {c : String} (hc : c ∈ simComps) {k : String} {v : V} {s : S}
    (hclean : ∀ d, (B.set .own d k v s).1 ≠ .error .attribute) (hok : (setA B c k v s).1 = .ok ()) :
    (∃ d kd, lookup c k = some (d, kd) ∧ setA B c k v s = B.set .own d k v s) ∨
    (∃ d kd, lookup "Simulation" k = some (d, kd) ∧ setA B c k v s = B.set .sim d k v s ∧
      (lookup c k = none ∨ lookup c k = some ("QSimComp", .ro) ∧ (k = "_initialStateInput" ∨ k = "initialState"))) := by
  by_cases hs : settable (lookup c k) = true
  · left
    obtain ⟨d, kd, hl, -⟩ := plainSet_of_settable B .own hs v s
    have hkd : kd = .slot ∨ kd = .rw := by
      rw [hl] at hs
      cases kd <;> simp [settable] at hs ⊢
    exact ⟨d, kd, hl, (C74_own_first B hl s).1 v hkd (hclean d)⟩
  · right
    have hs' : settable (lookup c k) = false := by simpa using hs
    rw [setA_of_not B hs'] at hok ⊢
    by_cases h2 : settable (lookup "Simulation" k) = true
    · obtain ⟨d, kd, hl, hp⟩ := plainSet_of_settable B .sim h2 v s
      refine ⟨d, kd, hl, hp, ?_⟩
      match hlc : lookup c k with
      | none => exact .inl rfl
      | some x =>
        rcases shadowed c hc k (lookup_mem hlc) hs' h2 with ⟨a, b⟩ | ⟨-, a, b⟩
        · exact .inr ⟨hlc ▸ b, .inl a⟩
        · exact .inr ⟨hlc ▸ b, .inr a⟩
    · unfold simSet at hok
      rw [plainSet_of_not B .sim (by simpa using h2)] at hok
      simp at hok

example : (setA protoBodies "qProtocol" "stepSize" (.num 5) ⟨.none, .obj 0, [], [], 0, 0⟩).1 = .ok () ∧
    lookup "qProtocol" "stepSize" = none ∧ lookup "Simulation" "stepSize" = some ("timeBase", .rw) := by
  decide +kernel

/-- A setter stores: after it has accepted a value, the getter with the same name returns that value. -/
def Stores (B : Bodies S V) (side : Side) (d k : String) : Prop :=
  ∀ v s, (B.set side d k v s).1 = .ok () → (B.get side d k (B.set side d k v s).2).1 = .ok v

/-- What was assigned is what is read, for attributes whose setter stores: this is about the delegation, that is, the
reading goes to the place that was written.  Missing for the full claim: setters that raise an `AttributeError`
(`C74_super_system`, `C74_steps`), and the setters `simTotalTime`, …, which do not store (`C74_sim_total_time`). -/
theorem C74_write_read_partial (B : Bodies S V) {c : String} (hc : c ∈ simComps) {k : String} {v : V} {s : S}
    (hclean : ∀ d, (B.set .own d k v s).1 ≠ .error .attribute) (hok : (setA B c k v s).1 = .ok ())
    (hown : ∀ d kd, lookup c k = some (d, kd) → Stores B .own d k)
    (hsim : ∀ d kd, lookup "Simulation" k = some (d, kd) → Stores B .sim d k)
    (hfwd : ∀ d kd, lookup "Simulation" k = some (d, kd) → k = "_initialStateInput" ∨ k = "initialState" →
      ∀ s, (B.get .own "QSimComp" k s).1 = (B.get .sim d k s).1) :
    (getA B c k (setA B c k v s).2).1 = .ok v := by
  rcases C74_where B hc hclean hok with ⟨d, kd, hl, he⟩ | ⟨d, kd, hl, he, hn | ⟨hr, hk⟩⟩
  · rw [he] at hok ⊢
    have hg := hown d kd hl v s hok
    rw [(C74_own_first B hl _).2 (by rw [hg]; simp)]
    exact hg
  · rw [he] at hok ⊢
    have hg := hsim d kd hl v s hok
    rw [getA_of_none B hn]
    unfold simGet plainGet
    rw [hl]
    exact hg
  · rw [he] at hok ⊢
    have hg := hsim d kd hl v s hok
    have hg' := (hfwd d kd hl hk _).trans hg
    rw [(C74_own_first B hr _).2 (by rw [hg']; simp)]
    exact hg'

/-- Keywords: if every assignment in the list is accepted and reads back its value (as in `C74_write_read_partial`),
and assigning one keyword leaves the others as they are, then after the construction all keywords have the given
values. -/
theorem C74_kwargs (B : Bodies S V) {c : String} :
    ∀ (l : List (String × V)) (s : S), (l.map (·.1)).Nodup →
      (∀ p ∈ l, ∀ s, (setA B c p.1 p.2 s).1 = .ok () ∧ (getA B c p.1 (setA B c p.1 p.2 s).2).1 = .ok p.2) →
      (∀ p ∈ l, ∀ q ∈ l, p.1 ≠ q.1 → ∀ s, (getA B c q.1 (setA B c p.1 p.2 s).2).1 = (getA B c q.1 s).1) →
      (setKwargs B c l s).1 = .ok () ∧ ∀ p ∈ l, (getA B c p.1 (setKwargs B c l s).2).1 = .ok p.2 := by
  intro l
  suffices H : ∀ (l : List (String × V)) (s : S), (l.map (·.1)).Nodup →
      (∀ p ∈ l, ∀ s, (setA B c p.1 p.2 s).1 = .ok () ∧ (getA B c p.1 (setA B c p.1 p.2 s).2).1 = .ok p.2) →
      (∀ p ∈ l, ∀ q ∈ l, p.1 ≠ q.1 → ∀ s, (getA B c q.1 (setA B c p.1 p.2 s).2).1 = (getA B c q.1 s).1) →
      (setKwargs B c l s).1 = .ok () ∧ (∀ p ∈ l, (getA B c p.1 (setKwargs B c l s).2).1 = .ok p.2) ∧
        ∀ k, (∀ p ∈ l, ∀ s, (getA B c k (setA B c p.1 p.2 s).2).1 = (getA B c k s).1) →
          (getA B c k (setKwargs B c l s).2).1 = (getA B c k s).1 from
    fun s h1 h2 h3 => ⟨(H l s h1 h2 h3).1, (H l s h1 h2 h3).2.1⟩
  intro l
  induction l with
  | nil => intro s _ _ _; simp [setKwargs]
  | cons p r ih =>
    intro s hnd hgood hframe
    obtain ⟨k, v⟩ := p
    have hset := hgood (k, v) (by simp)
    simp only [List.map_cons, List.nodup_cons] at hnd
    have hstep : setKwargs B c ((k, v) :: r) s = setKwargs B c r (setA B c k v s).2 := by
      rw [setKwargs]
      have := (hset s).1
      match h2 : setA B c k v s with
      | (.ok _, _) => rfl
      | (.error e, _) => simp [h2] at this
    obtain ⟨i1, i2, i3⟩ := ih (setA B c k v s).2 hnd.2 (fun p hp => hgood p (by simp [hp]))
      (fun p hp q hq => hframe p (by simp [hp]) q (by simp [hq]))
    rw [hstep]
    refine ⟨i1, ?_, ?_⟩
    · intro p hp
      rcases List.mem_cons.1 hp with rfl | hp
      · rw [i3 k fun q hq => hframe q (by simp [hq]) (k, v) (by simp) ?_]
        · exact (hset s).2
        · rintro he
          exact hnd.1 (List.mem_map.2 ⟨q, hq, he⟩)
      · exact i2 p hp
    · intro q hq
      rw [i3 q fun p hp => hq p (by simp [hp])]
      exact hq (k, v) (by simp) s

example : (setKwargs protoBodies "qProtocol" [("totalTime", .num 3), ("superSys", .obj 4), ("stepSize", .num 1)]
    ⟨.none, .obj 0, [], [], 0, 0⟩) = (.ok (), ⟨.obj 4, .obj 0, [], [], 3, 1⟩) := by decide +kernel

/-- Finding: `obj.simTotalTime = t` sets the total time of the simulation, but `obj.simTotalTime` is the tuple of all
parameters, for every class. -/
theorem C74_sim_total_time : ∀ c ∈ simComps,
    lookup c "simTotalTime" = some ("QSimComp", .rw) ∧
    ∀ (t : Int) (s : Proto),
      (setA protoBodies c "simTotalTime" (.num t) s) = (.ok (), { s with total := t }) ∧
      (getA protoBodies c "simTotalTime" { s with total := t }).1 = .ok (.params t s.step) ∧
      (getA protoBodies c "simTotalTime" { s with total := t }).1 ≠ .ok (.num t) := by
  have hl : ∀ c ∈ simComps, lookup c "simTotalTime" = some ("QSimComp", .rw) := by decide +kernel
  intro c hc
  refine ⟨hl c hc, fun t s => ?_⟩
  have h1 := (C74_own_first protoBodies (hl c hc) s).1 (.num t) (.inr rfl) (by simp [protoBodies])
  have h2 := (C74_own_first protoBodies (hl c hc) { s with total := t }).2 (by simp [protoBodies])
  rw [h1, h2]
  simp [protoBodies]

/-- Finding: assigning `None` as the system of a protocol is accepted.  The setter raises an `AttributeError` after it
has done half of its work; this is caught, and the same assignment is made on the simulation, which loses its
`superSys`: afterwards the system for the initial state cannot be found any more, with an `AttributeError`. -/
theorem C74_super_system : ∀ (s : Proto), s.simSuper = .obj 0 → ∀ i, s.superSys = .obj i →
    setA protoBodies "qProtocol" "superSys" .none s =
      (.ok (), { s with superSys := .none, simSuper := .none }) ∧
    (simGet protoBodies "initialStateSystem" s).1 = .ok (.obj i) ∧
    (simGet protoBodies "initialStateSystem" (setA protoBodies "qProtocol" "superSys" .none s).2).1 =
      .error .attribute := by
  have hl : lookup "qProtocol" "superSys" = some ("genericProtocol", .rw) := by decide +kernel
  have hs : lookup "Simulation" "superSys" = some ("qBase", .rw) := by decide +kernel
  have hi : lookup "Simulation" "initialStateSystem" = some ("stateBase", .rw) := by decide +kernel
  intro s h0 i h1
  have hset : setA protoBodies "qProtocol" "superSys" .none s =
      (.ok (), { s with superSys := .none, simSuper := .none }) := by
    simp [setA, plainSet, simSet, hl, hs, protoBodies]
  rw [hset]
  refine ⟨rfl, ?_, ?_⟩ <;> simp [simGet, plainGet, hi, protoBodies, h0, h1]

example : setA protoBodies "qProtocol" "superSys" .none ⟨.obj 5, .obj 0, [2], [5], 1, 1⟩ =
    (.ok (), ⟨.none, .none, [2], [5], 1, 1⟩) := by decide +kernel

/-- Finding: `protocol.subSys = [g1, g2]` is accepted, but it removes all steps of the protocol, and replaces the
systems of the protocol's simulation by the gates. -/
theorem C74_steps : ∀ (s : Proto) (l : List Nat),
    setA protoBodies "qProtocol" "subSys" (.objs l) s = (.ok (), { s with steps := [], simSub := l }) ∧
    ∀ i, setA protoBodies "qProtocol" "subSys" (.obj i) s = (.ok (), { s with steps := [i] }) := by
  have hl : lookup "qProtocol" "subSys" = some ("qBase", .rw) := by decide +kernel
  have hs : lookup "Simulation" "subSys" = some ("qBase", .rw) := by decide +kernel
  intro s l
  refine ⟨?_, fun i => ?_⟩ <;> simp [setA, plainSet, simSet, hl, hs, protoBodies]

/-! ## Which attributes can be assigned -/

/-- The properties without a setter, with the class that defines them. -/
def readOnly : List (String × String) :=
  [("QSimComp", "simulation"), ("QSimComp", "_initialStateInput"), ("QSimComp", "simParameters"), ("QSimComp", "initialState"),
   ("QTerm", "totalHamiltonian"), ("QuantumSystem", "_subSysHamiltonian"), ("QuantumSystem", "totalHamiltonian"),
   ("QuantumSystem", "_termHamiltonian"), ("QuantumSystem", "_totalDim"), ("QuantumSystem", "subSysDimensions"),
   ("QuantumSystem", "_isComposite"), ("QuantumSystem", "ind"), ("QuantumSystem", "_freeEvol"), ("QuantumSystem", "_firstTerm"),
   ("Simulation", "_currentTime"), ("Simulation", "timeList"), ("Simulation", "protocols"), ("Simulation", "qSystems"),
   ("Simulation", "qEvolutions"), ("Sweep", "inds"), ("Sweep", "indMultip"), ("_sweep", "index"), ("compQSystem", "subSysDimensions"),
   ("compQSystem", "freeHam"), ("compQSystem", "totalHam"), ("compQSystem", "couplingHam"), ("compQSystem", "qSystems"),
   ("compQSystem", "qCouplings"), ("computeBase", "resultsDict"), ("computeBase", "states"), ("copyStep", "simulation"),
   ("copyStep", "_isOpen"), ("genericProtocol", "hc"), ("genericProtocol", "dimension"), ("genericProtocol", "_dissipator"),
   ("genericProtocol", "_isOpen"), ("genericProtocol", "updates"), ("genericQSys", "ind"), ("genericQSys", "dimension"),
   ("genericQSys", "_totalDim"), ("genericQSys", "_freeEvol"), ("named", "name"), ("paramBoundBase", "_hc"),
   ("paramBoundBase", "_paramBound"), ("qBase", "auxObj"), ("qCoupling", "couplingOperators"), ("qCoupling", "coupledSystems"),
   ("qResBase", "resultsDict"), ("qResBase", "states"), ("qSystem", "totalHam"), ("qSystem", "_totalHamSimple"),
   ("qSystem", "firstTerm"), ("term", "_freeMatSimple"), ("termTimeDep", "totalHam"), ("thermalBath", "nBar")]

/-- The properties with a setter. -/
def assignable : List (String × String) :=
  [("Gate", "system"), ("Gate", "implementation"), ("QSimComp", "simTotalTime"), ("QSimComp", "simStepSize"),
   ("QSimComp", "simStepCount"), ("QSimComp", "simSamples"), ("QSimComp", "simCompute"), ("QSimComp", "simDelStates"),
   ("QTerm", "qSystem"), ("QTerm", "superSys"), ("QTerm", "operator"), ("QTerm", "order"), ("QTerm", "frequency"),
   ("QTerm", "_freeMatrix"), ("QuantumSystem", "_compositeOperator"), ("QuantumSystem", "initialState"), ("QuantumSystem", "dimension"),
   ("QuantumSystem", "_dimsBefore"), ("QuantumSystem", "_dimsAfter"), ("QuantumSystem", "terms"), ("QuantumSystem", "frequency"),
   ("QuantumSystem", "operator"), ("QuantumSystem", "order"), ("QuantumSystem", "_freeMatrix"), ("Spin", "jValue"),
   ("SpinOld", "jValue"), ("SpinRotation", "angle"), ("SpinRotation", "rotationAxis"), ("Sweep", "sweeps"), ("Update", "memoryValue"),
   ("Update", "updateFunction"), ("_genericOpen", "system"), ("_genericOpen", "superSys"), ("_sweep", "sweepFunction"),
   ("_sweep", "sweepKey"), ("_sweep", "sweepList"), ("computeBase", "alias"), ("copyStep", "_paramUpdated"),
   ("dissipatorObj", "temperature"), ("dissipatorObj", "superSys"), ("dissipatorObj", "jRate"), ("dissipatorObj", "jOper"),
   ("dissipatorObj", "jOperMatrix"), ("genericProtocol", "currentState"), ("genericProtocol", "initialState"),
   ("genericProtocol", "ratio"), ("genericProtocol", "system"), ("genericProtocol", "fixed"), ("genericProtocol", "superSys"),
   ("genericQSys", "_dimsBefore"), ("genericQSys", "_dimsAfter"), ("genericQSys", "initialState"), ("named", "alias"),
   ("paramBoundBase", "_paramUpdated"), ("pulse", "t0"), ("pulse", "t1"), ("pulse", "func"), ("qBase", "auxDict"), ("qBase", "superSys"),
   ("qBase", "subSys"), ("qCoupling", "couplingStrength"), ("qDrive", "pulses"), ("qProtocol", "_paramUpdated"), ("qProtocol", "steps"),
   ("qResBase", "calculated"), ("qResBase", "singleResult"), ("qResBase", "resAverage"), ("qSystem", "dimension"),
   ("qSystem", "freeMat"), ("qSystem", "operator"), ("qSystem", "frequency"), ("qSystem", "order"), ("qSystem", "terms"),
   ("stateBase", "initialStateSystem"), ("stateBase", "initialState"), ("stateBase", "_initialStateInput"), ("stateBase", "delStates"),
   ("term", "superSys"), ("termTimeDep", "operator"), ("termTimeDep", "order"), ("termTimeDep", "frequency"), ("termTimeDep", "freeMat"),
   ("thermalBath", "jOpers"), ("thermalBath", "dissipator"), ("thermalBath", "subSys"), ("thermalBath", "temperature"),
   ("thermalBath", "charFreq"), ("timeBase", "totalTime"), ("timeBase", "stepCount"), ("timeBase", "stepSize"), ("timeBase", "samples"),
   ("updateBase", "key"), ("updateBase", "system")]

theorem kinds_table : ∀ c ∈ classes.map (·.name), ∀ k ∈ namesOf c, ∀ x ∈ lookup c k,
    (x.2 = .ro → (x.1, k) ∈ readOnly) ∧ (x.2 = .rw → (x.1, k) ∈ assignable) := by decide +kernel

theorem own_kinds : (∀ p ∈ readOnly, lookup p.1 p.2 = some (p.1, .ro)) ∧ ∀ p ∈ assignable, lookup p.1 p.2 = some (p.1, .rw) := by
  decide +kernel

/-- C74: for all classes of the library: the attributes that are properties without a setter are those listed, in the class that defines
them and in all derived classes in which they are found first; assigning to one of them raises AttributeError and changes nothing. The others
have setters. -/
theorem C74_read_only (B : Bodies S V) {c k d : String} (hc : c ∈ classes.map (·.name)) :
    (lookup c k = some (d, .ro) → (d, k) ∈ readOnly ∧ ∀ side v s, plainSet B side c k v s = (.error .attribute, s)) ∧
    (lookup c k = some (d, .rw) → (d, k) ∈ assignable ∧ ∀ side v s, plainSet B side c k v s = B.set side d k v s) ∧
    ((c, k) ∈ readOnly → lookup c k = some (c, .ro)) ∧ ((c, k) ∈ assignable → lookup c k = some (c, .rw)) := by
  refine ⟨fun h => ⟨(kinds_table c hc k (lookup_mem h) _ h).1 rfl, fun side v s => by simp [plainSet, h]⟩,
    fun h => ⟨(kinds_table c hc k (lookup_mem h) _ h).2 rfl, fun side v s => by simp [plainSet, h]⟩,
    fun h => own_kinds.1 _ h, fun h => own_kinds.2 _ h⟩

/-- The name of a qubit cannot be assigned, its alias can. -/
example : lookup "Qubit" "name" = some ("named", .ro) ∧ lookup "Qubit" "alias" = some ("computeBase", .rw) := by decide +kernel

end Verif.Obj
