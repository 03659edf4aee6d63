import Verif.Gate.Model

/-!
# C100: gates rotate by the angle they show
-/
namespace Verif.Gate
open Verif.Toolbox

/-! ### Computed from scratch -/

theorem mulM_same {D : ℕ} (A B : Op D) : mulM ⟨D, A⟩ ⟨D, B⟩ = some ⟨D, A * B⟩ := by
  simp [mulM]

theorem mulM_one (A : Mx) (n : ℕ) : mulM A ⟨n, 1⟩ = if n = A.1 then some A else none := by
  unfold mulM
  by_cases h : n = A.1
  · subst h
    simp
  · simp [h]

/-- The system of a place. -/
def sysOf {D : ℕ} (p : Place D) : Sys := ⟨p.before, p.dim, p.after⟩

theorem spinFactor_eq {D : ℕ} (a : Axis) (phase angle : ℝ) (p : Place D) :
    spinFactor a phase angle (sysOf p) = ⟨D, unitaryOp (((phase * angle : ℝ) : ℂ) • emb p (spinOfDim a p.dim)) 1⟩ := by
  obtain ⟨b, d, c, h⟩ := p
  subst h
  rfl

theorem flipFactor_eq {D : ℕ} (a : Axis) (angle : ℝ) (q : QPlace D) :
    flipFactor a angle (sysOf q.place) = ⟨D, emb q.place (axisRotation a angle)⟩ := by
  obtain ⟨b, c, h⟩ := q
  subst h
  rfl

theorem factors_eq {D : ℕ} {X : Type} (f : Sys → Mx) (s : X → Sys) (F : X → Op D) (h : ∀ x, f (s x) = ⟨D, F x⟩) :
    ∀ (l : List X) (U : Op D), factors f ⟨D, U⟩ (l.map s) = .ok ⟨D, (l.map F).reverse.prod * U⟩
  | [], U => by simp [factors]
  | x :: l, U => by
    simp only [List.map_cons, factors, h, mulM_same]
    rw [factors_eq f s F h l]
    simp [Matrix.mul_assoc]

/-- What a gate whose attributes are all given shows: rotation about the axis, by the angle, of the systems at these places of a space of
dimension `D`. -/
structure Shows {D : ℕ} (p : Params) (a : Axis) (θ : ℝ) (places : List (Place D)) : Prop where
  axis : ∃ s, p.axis = some s ∧ parseAxis s = some a
  angle : p.angle = some θ
  systems : p.systems.map Prod.snd = places.map sysOf
  nonempty : places ≠ []
  around : ∀ n, p.around = some n → n = D

theorem idDim_shows {D : ℕ} {p : Params} {a : Axis} {θ : ℝ} {places : List (Place D)} (h : Shows p a θ places) : idDim p = .ok D := by
  unfold idDim
  cases ha : p.around with
  | some n => simp [h.around n ha]
  | none =>
    have hs := h.systems
    cases hp : p.systems with
    | nil => rw [hp] at hs; exact absurd (List.map_eq_nil_iff.1 hs.symm) h.nonempty
    | cons x r =>
      cases places with
      | nil => exact absurd rfl h.nonempty
      | cons q l =>
        rw [hp] at hs
        simp only [List.map_cons, List.cons.injEq] at hs
        simp only [hs.1]
        exact congrArg _ q.total

/-- The matrix `U`, in an open system as the map that the code makes of it (C47). -/
noncomputable def shown {D : ℕ} (opened : Bool) (U : Op D) : Mx := if opened then ⟨D * D, openGate U⟩ else ⟨D, U⟩

theorem compute_eq {D : ℕ} {isX : Bool} {g : G} {U : Op D} (hi : idDim g.toParams = .ok D) (hc : create isX g.toParams = .ok ⟨D, U⟩) :
    ask.compute isX g = (.ok (shown g.opened U), { g with updated := false, matrix := some (shown g.opened U) }) := by
  have hf : finish g.opened ⟨D, U⟩ = shown g.opened U := rfl
  unfold ask.compute
  simp only [hi, hc, hf, mulM_one]
  have : (if g.opened = true then D * D else D) = (shown g.opened U).1 := by
    unfold shown
    cases g.opened <;> rfl
  simp [this]

/-- The gate with its matrix forgotten: what it answers is computed from its attributes as they are. -/
def forget (g : G) : G := { g with updated := true, matrix := none }

theorem ask_forget (isX : Bool) (g : G) : ask isX (forget g) = ask.compute isX (forget g) := by
  unfold ask
  exact if_pos rfl

theorem compute_congr {isX : Bool} {g g' : G} (hi : idDim g.toParams = idDim g'.toParams)
    (hc : create isX g.toParams = create isX g'.toParams) (ho : g.opened = g'.opened) :
    (ask.compute isX g).1 = (ask.compute isX g').1 := by
  unfold ask.compute
  rw [hi, hc, ho]
  cases idDim g'.toParams with
  | error e => rfl
  | ok n =>
    cases create isX g'.toParams with
    | error e => rfl
    | ok U =>
      simp only
      cases mulM (finish g'.opened U) ⟨if g'.opened = true then n * n else n, 1⟩ <;> rfl

theorem compute_fst (isX : Bool) (g : G) : (ask.compute isX g).1 = (ask isX (forget g)).1 := by
  rw [ask_forget]
  exact compute_congr rfl rfl rfl

/-! ### The axis that is shown and the operator that is used -/

/-- The operator is the one of the axis, where the axis is one. -/
def OperOk (g : G) : Prop := ∀ s, g.axis = some s → (parseAxis s).or g.oper = g.oper

theorem ask_params (isX : Bool) (g : G) : (ask isX g).2.toParams = g.toParams := by
  have key : (ask.compute isX g).2.toParams = g.toParams := by
    unfold ask.compute
    cases idDim g.toParams with
    | error e => rfl
    | ok n =>
      cases create isX g.toParams with
      | error e => rfl
      | ok U =>
        simp only
        cases mulM (finish g.opened U) ⟨if g.opened = true then n * n else n, 1⟩ <;> rfl
  unfold ask
  split
  · exact key
  · split
    · rfl
    · exact key

theorem step_operOk (isX : Bool) (g : G) (c : Cmd) (h : OperOk g) : OperOk (step isX g c) := by
  cases c with
  | ask =>
    have := ask_params isX g
    intro s hs
    have h1 : (ask isX g).2.axis = g.axis := congrArg Params.axis this
    have h2 : (ask isX g).2.oper = g.oper := congrArg Params.oper this
    have hs' : (ask isX g).2.axis = some s := hs
    have := h s (h1 ▸ hs')
    show (parseAxis s).or (ask isX g).2.oper = (ask isX g).2.oper
    rw [h2]; exact this
  | axis t =>
    intro s hs
    have e : t = s := Option.some.inj hs
    subst e
    show (parseAxis t).or ((parseAxis t).or g.oper) = (parseAxis t).or g.oper
    cases parseAxis t <;> rfl
  | _ => exact h

theorem parse_x : parseAxis "x" = some .x := by decide +kernel

theorem new_operOk (isX : Bool) : OperOk (new isX) := by
  intro s hs
  cases isX with
  | false => cases hs
  | true =>
    have e : "x" = s := Option.some.inj hs
    subst e
    rw [parse_x]; rfl

theorem run_append (isX : Bool) (a b : List Cmd) : ∀ g, run isX g (a ++ b) = run isX (run isX g a) b := by
  induction a with
  | nil => intro g; rfl
  | cons c r ih => intro g; exact ih _

theorem run_operOk (isX : Bool) : ∀ (cs : List Cmd) (g : G), OperOk g → OperOk (run isX g cs)
  | [], _, h => h
  | c :: r, g, h => run_operOk isX r _ (step_operOk isX g c h)

/-- **C100 (rotations).** Whatever was done with a `SpinRotation`, or with an `xGate` without implementation, the matrix that it computes is
the product of the rotations `exp(-i phase angle J)` of all its systems about the axis that it shows, in the order in which the systems
were added. -/
theorem C100_rotation {D : ℕ} (isX : Bool) (cs : List Cmd) (a : Axis) (θ : ℝ) (places : List (Place D)) (g : G)
    (hg : g = run isX (new isX) cs) (h : Shows g.toParams a θ places) (hm : isX = false ∨ g.impl = none) :
    (ask isX (forget g)).1 = .ok (shown g.opened
      (places.map fun q => unitaryOp (((g.phase * θ : ℝ) : ℂ) • emb q (spinOfDim a q.dim)) 1).reverse.prod) := by
  have ho : g.oper = some a := by
    obtain ⟨s, h1, h2⟩ := h.axis
    have := run_operOk isX cs _ (new_operOk isX) s (hg ▸ h1)
    rw [h2, ← hg] at this
    exact this.symm
  have hc : create isX (forget g).toParams =
      .ok ⟨D, (places.map fun q => unitaryOp (((g.phase * θ : ℝ) : ℂ) • emb q (spinOfDim a q.dim)) 1).reverse.prod⟩ := by
    have hr : rotMat g.toParams =
        .ok ⟨D, (places.map fun q => unitaryOp (((g.phase * θ : ℝ) : ℂ) • emb q (spinOfDim a q.dim)) 1).reverse.prod⟩ := by
      unfold rotMat
      rw [h.systems]
      cases places with
      | nil => exact absurd rfl h.nonempty
      | cons q l =>
        simp only [List.map_cons, ho, h.angle, spinFactor_eq]
        rw [factors_eq _ sysOf _ (fun x => spinFactor_eq a g.phase θ x) l]
        simp
    have e : (forget g).toParams = g.toParams := rfl
    unfold create
    rw [e]
    rcases hm with hm | hm
    · simp [hm, hr]
    · simp [hm, hr]
  rw [ask_forget, compute_eq (g := forget g) (idDim_shows h) hc]
  rfl

/-- **C100 (flips).** An `xGate` with the implementation `instant` or `flip` on two-level systems computes the product of the rotation
matrices of the systems; its phase plays no role. -/
theorem C100_flip {D : ℕ} (g : G) (a : Axis) (θ : ℝ) (qs : List (QPlace D)) (h : Shows g.toParams a θ (qs.map QPlace.place))
    (s : String) (hs : g.impl = some s) (hi : s.toLower = "instant" ∨ s.toLower = "flip") :
    (ask true (forget g)).1 = .ok (shown g.opened (qs.map fun q => emb q.place (axisRotation a θ)).reverse.prod) := by
  have hc : create true (forget g).toParams = .ok ⟨D, (qs.map fun q => emb q.place (axisRotation a θ)).reverse.prod⟩ := by
    have e : (forget g).toParams = g.toParams := rfl
    have hi' : isInstant s = true := by unfold isInstant; simpa using hi
    rw [e]
    obtain ⟨x, hx, hp⟩ := h.axis
    unfold create
    simp only [if_true, hs, hi']
    unfold instantFlip
    rw [h.systems]
    cases qs with
    | nil => exact absurd rfl h.nonempty
    | cons q l =>
      simp only [List.map_cons, List.map_map, hx, hp, h.angle, flipFactor_eq]
      rw [factors_eq _ (sysOf ∘ QPlace.place) _ (fun x => flipFactor_eq a θ x) l]
      simp
  rw [ask_forget, compute_eq (g := forget g) (idDim_shows h) hc]
  rfl

/-- Any other implementation is an `UnboundLocalError`. -/
theorem C100_unknown_implementation (g : G) (s : String) (hs : g.impl = some s) (h1 : s.toLower ≠ "instant") (h2 : s.toLower ≠ "flip")
    (hn : g.systems ≠ []) : (ask true (forget g)).1 = .error .unbound := by
  have e : (forget g).toParams = g.toParams := rfl
  have hc : create true g.toParams = .error .unbound := by
    unfold create
    simp [hs, isInstant, h1, h2]
  have hi : ∃ n, idDim g.toParams = .ok n := by
    unfold idDim
    cases g.around with
    | some n => exact ⟨n, rfl⟩
    | none =>
      cases hp : g.systems with
      | nil => exact absurd hp hn
      | cons x r => exact ⟨_, rfl⟩
  obtain ⟨n, hn⟩ := hi
  rw [ask_forget]
  unfold ask.compute
  simp [e, hn, hc]

theorem prod_unitary {D : ℕ} : ∀ l : List (Op D), (∀ U ∈ l, hc U * U = 1) → hc l.prod * l.prod = 1
  | [], _ => by simp [hc_eq]
  | U :: l, h => by
    rw [List.prod_cons, hc_eq, Matrix.conjTranspose_mul, ← hc_eq, ← hc_eq, Matrix.mul_assoc, ← Matrix.mul_assoc (hc U),
      h U (by simp), Matrix.one_mul]
    exact prod_unitary l fun V hV => h V (by simp [hV])

/-- **C100 (unitarity).** The matrix that a closed gate computes is unitary, for every axis, angle and phase and all places of systems. -/
theorem C100_unitary {D : ℕ} (isX : Bool) (cs : List Cmd) (a : Axis) (θ : ℝ) (places : List (Place D)) (g : G)
    (hg : g = run isX (new isX) cs) (h : Shows g.toParams a θ places) (hd : ∀ q ∈ places, 0 < q.dim) (hm : isX = false ∨ g.impl = none)
    (ho : g.opened = false) : ∃ U : Op D, (ask isX (forget g)).1 = .ok ⟨D, U⟩ ∧ hc U * U = 1 := by
  refine ⟨_, by rw [C100_rotation isX cs a θ places g hg h hm, ho]; rfl, ?_⟩
  apply prod_unitary
  intro U hU
  simp only [List.mem_reverse, List.mem_map] at hU
  obtain ⟨q, hq, rfl⟩ := hU
  refine (C41_unitary _ ?_ 1).1
  unfold Matrix.IsHermitian
  rw [Matrix.conjTranspose_smul, ← emb_conjTranspose, spinOfDim_herm a q.dim (hd q hq)]
  simp

/-! ### In the course of time -/

/-- Commands whose effect a gate does not notice. -/
def Quiet : Cmd → Prop
  | .phase _ | .impl _ | .add _ _ | .remove _ | .around _ | .opens => True
  | _ => False

/-- Commands that make a gate compute again: another angle, another axis, another dimension or place of one of its systems, another
parameter of its systems, `delMatrices`. -/
def Marks (g : G) : Cmd → Prop
  | .angle θ => g.angle ≠ some θ
  | .axis s => g.axis ≠ some s
  | .place i s => ∃ x ∈ g.systems, x.1 = i ∧ x.2 ≠ s
  | .touch => True
  | .drop => True
  | _ => False

/-- No command of the history makes the gate compute again. -/
def NoMarks (isX : Bool) : G → List Cmd → Prop
  | _, [] => True
  | g, c :: r => ¬ Marks g c ∧ NoMarks isX (step isX g c) r

theorem noMarks_snoc (isX : Bool) (c : Cmd) : ∀ (l : List Cmd) (g : G), NoMarks isX g l → ¬ Marks (run isX g l) c →
    NoMarks isX g (l ++ [c])
  | [], _, _, hc => ⟨hc, trivial⟩
  | _ :: l, _, h, hc => ⟨h.1, noMarks_snoc isX c l _ h.2 hc⟩

theorem step_marks (isX : Bool) (g : G) (c : Cmd) (h : Marks g c) : (step isX g c).updated = true ∨ (step isX g c).matrix = none := by
  cases c with
  | angle θ => exact Or.inl (by simp only [step, marked]; exact if_neg (fun e => h e.symm))
  | axis s => exact Or.inl (by simp only [step, marked]; exact if_neg (fun e => h e.symm))
  | place i s =>
    obtain ⟨x, hx, h1, h2⟩ := h
    refine Or.inl ?_
    simp only [step, Bool.or_eq_true, List.any_eq_true, decide_eq_true_eq]
    exact Or.inr ⟨x, hx, h1, h2⟩
  | touch => exact Or.inl rfl
  | drop => exact Or.inr rfl
  | _ => exact h.elim

theorem step_not_marks (isX : Bool) (g : G) (c : Cmd) (h : ¬ Marks g c) (hc : c ≠ .ask) :
    (step isX g c).updated = g.updated ∧ (step isX g c).matrix = g.matrix := by
  cases c with
  | angle θ =>
    refine ⟨?_, rfl⟩
    simp only [step, marked]
    exact if_pos (not_not.1 h).symm
  | axis s =>
    refine ⟨?_, rfl⟩
    simp only [step, marked]
    exact if_pos (not_not.1 h).symm
  | place i s =>
    refine ⟨?_, rfl⟩
    have : (g.systems.any fun x => decide (x.1 = i ∧ x.2 ≠ s)) = false := by
      rw [List.any_eq_false]
      intro x hx hd
      have hd := of_decide_eq_true hd
      exact h ⟨x, hx, hd.1, hd.2⟩
    simp only [step, this, Bool.or_false]
  | touch => exact absurd trivial h
  | drop => exact absurd trivial h
  | ask => exact absurd rfl hc
  | _ => exact ⟨rfl, rfl⟩

/-- What creating leaves. -/
theorem compute_snd (isX : Bool) (g : G) : (ask.compute isX g).2 = g ∨
    ∃ U, create isX g.toParams = .ok U ∧ (ask.compute isX g).2 = { g with updated := false, matrix := some (finish g.opened U) } := by
  unfold ask.compute
  cases idDim g.toParams with
  | error e => exact Or.inl rfl
  | ok n =>
    cases hc : create isX g.toParams with
    | error e => exact Or.inl rfl
    | ok U =>
      refine Or.inr ⟨U, rfl, ?_⟩
      simp only
      cases hm : mulM (finish g.opened U) ⟨if g.opened = true then n * n else n, 1⟩ with
      | none => rfl
      | some V =>
        have : V = finish g.opened U := by
          rw [mulM_one] at hm
          by_cases e : (if g.opened = true then n * n else n) = (finish g.opened U).1
          · rw [if_pos e] at hm; exact (Option.some.inj hm).symm
          · rw [if_neg e] at hm; cases hm
        simp only [this]

theorem create_nonempty {isX : Bool} {p : Params} {U : Mx} (h : create isX p = .ok U) : ∃ n, idDim p = .ok n := by
  unfold idDim
  cases ha : p.around with
  | some n => exact ⟨n, rfl⟩
  | none =>
    cases hp : p.systems with
    | cons x r => exact ⟨_, rfl⟩
    | nil =>
      exfalso
      have r : rotMat p = .error .index := by unfold rotMat; simp [hp]
      have f : ∀ V, instantFlip p ≠ .ok V := by
        intro V hV
        unfold instantFlip at hV
        simp only [hp, List.map_nil] at hV
        cases hx : p.axis with
        | none => rw [hx] at hV; cases hV
        | some x =>
          rw [hx] at hV
          simp only at hV
          cases hy : parseAxis x with
          | none => rw [hy] at hV; cases hV
          | some b => rw [hy] at hV; cases hz : p.angle <;> rw [hz] at hV <;> cases hV
      unfold create at h
      cases isX with
      | false => simp [r] at h
      | true =>
        cases hi : p.impl with
        | none => simp [hi, r] at h
        | some s =>
          rw [hi] at h
          simp only [if_true] at h
          cases hj : isInstant s with
          | false => rw [hj] at h; cases h
          | true => rw [hj] at h; exact f U h

/-- What creating answers. -/
theorem compute_of_create {isX : Bool} {g : G} {U : Mx} (h : create isX g.toParams = .ok U) :
    (ask isX (forget g)).1 = .ok (finish g.opened U) ∨ (ask isX (forget g)).1 = .error .value := by
  rw [← compute_fst]
  obtain ⟨n, hn⟩ := create_nonempty h
  unfold ask.compute
  simp only [hn, h]
  cases hm : mulM (finish g.opened U) ⟨if g.opened = true then n * n else n, 1⟩ with
  | none => exact Or.inr rfl
  | some V =>
    rw [mulM_one] at hm
    by_cases e : (if g.opened = true then n * n else n) = (finish g.opened U).1
    · rw [if_pos e] at hm; exact Or.inl (by simp only [(Option.some.inj hm).symm])
    · rw [if_neg e] at hm; cases hm

theorem ask_unfold (isX : Bool) (g : G) : (ask isX g = ask.compute isX g ∧ (g.updated = true ∨ g.matrix = none)) ∨
    ∃ M, g.updated = false ∧ g.matrix = some M ∧ ask isX g = (.ok M, g) := by
  unfold ask
  cases hu : g.updated with
  | true => exact Or.inl ⟨if_pos rfl, Or.inl rfl⟩
  | false =>
    cases hm : g.matrix with
    | none => exact Or.inl ⟨rfl, Or.inr rfl⟩
    | some M => exact Or.inr ⟨M, rfl, rfl, rfl⟩

theorem ask_of_open {isX : Bool} {g : G} (h : g.updated = true ∨ g.matrix = none) : (ask isX g).1 = (ask isX (forget g)).1 := by
  rcases ask_unfold isX g with ⟨e, _⟩ | ⟨M, hu, hm, _⟩
  · rw [e, compute_fst]
  · rw [hu, hm] at h; rcases h with h | h <;> cases h

/-- Where the stored matrix comes from. -/
theorem origin (isX : Bool) (cs : List Cmd) : (run isX (new isX) cs).updated = true ∨ (run isX (new isX) cs).matrix = none ∨
    ∃ p q U, cs = p ++ Cmd.ask :: q ∧ create isX (run isX (new isX) p).toParams = .ok U ∧
      (run isX (new isX) cs).matrix = some (finish (run isX (new isX) p).opened U) ∧
      NoMarks isX (step isX (run isX (new isX) p) .ask) q := by
  induction cs using List.reverseRecOn with
  | nil => exact Or.inl rfl
  | append_singleton cs c ih =>
    rw [run_append]
    show (step isX (run isX (new isX) cs) c).updated = true ∨ (step isX (run isX (new isX) cs) c).matrix = none ∨ _
    by_cases hm : Marks (run isX (new isX) cs) c
    · rcases step_marks isX _ c hm with h | h
      · exact Or.inl h
      · exact Or.inr (Or.inl h)
    · by_cases hc : c = .ask
      · subst hc
        rcases ask_unfold isX (run isX (new isX) cs) with ⟨e, ho⟩ | ⟨M, hu, hM, e⟩
        · rcases compute_snd isX (run isX (new isX) cs) with h | ⟨U, h1, h2⟩
          · have : step isX (run isX (new isX) cs) .ask = run isX (new isX) cs := by
              show (ask isX _).2 = _
              rw [e, h]
            rw [this]
            rcases ho with ho | ho
            · exact Or.inl ho
            · exact Or.inr (Or.inl ho)
          · refine Or.inr (Or.inr ⟨cs, [], U, rfl, h1, ?_, trivial⟩)
            show (ask isX _).2.matrix = _
            rw [e, h2]
        · have he : step isX (run isX (new isX) cs) .ask = run isX (new isX) cs := by
            show (ask isX _).2 = _
            rw [e]
          rw [he]
          rcases ih with h | h | ⟨p, q, U, h1, h2, h3, h4⟩
          · exact Or.inl h
          · exact Or.inr (Or.inl h)
          · refine Or.inr (Or.inr ⟨p, q ++ [.ask], U, by rw [h1]; simp, h2, ?_, ?_⟩)
            · show (step isX (run isX (new isX) cs) .ask).matrix = _
              rw [he, h3]
            · refine noMarks_snoc isX _ q _ h4 ?_
              exact fun h => h
      · obtain ⟨e1, e2⟩ := step_not_marks isX _ c hm hc
        rw [e1, e2]
        rcases ih with h | h | ⟨p, q, U, h1, h2, h3, h4⟩
        · exact Or.inl h
        · exact Or.inr (Or.inl h)
        · refine Or.inr (Or.inr ⟨p, q ++ [c], U, by rw [h1]; simp, h2, ?_, ?_⟩)
          · show (step isX (run isX (new isX) cs) c).matrix = _
            rw [e2, h3]
          · refine noMarks_snoc isX _ q _ h4 ?_
            have : run isX (step isX (run isX (new isX) p) .ask) q = run isX (new isX) cs := by
              rw [h1, run_append]; rfl
            rw [this]; exact hm

/-- **C100 (which matrix is answered).** Whatever was done with a gate: its answer is what its attributes give now, or what they gave the
last time it was asked, nothing having marked it since - where that question may itself have ended in a `ValueError`. -/
theorem C100_answer (isX : Bool) (cs : List Cmd) :
    (ask isX (run isX (new isX) cs)).1 = (ask isX (forget (run isX (new isX) cs))).1 ∨
    ∃ p q, cs = p ++ Cmd.ask :: q ∧ NoMarks isX (step isX (run isX (new isX) p) .ask) q ∧
      ((ask isX (run isX (new isX) cs)).1 = (ask isX (forget (run isX (new isX) p))).1 ∨
        (ask isX (forget (run isX (new isX) p))).1 = .error .value) := by
  rcases ask_unfold isX (run isX (new isX) cs) with ⟨e, ho⟩ | ⟨M, hu, hM, e⟩
  · exact Or.inl (ask_of_open ho)
  · rcases origin isX cs with h | h | ⟨p, q, U, h1, h2, h3, h4⟩
    · exact Or.inl (ask_of_open (Or.inl h))
    · exact Or.inl (ask_of_open (Or.inr h))
    · refine Or.inr ⟨p, q, h1, h4, ?_⟩
      rcases compute_of_create h2 with h | h
      · refine Or.inl ?_
        rw [h, e]
        rw [hM] at h3
        exact congrArg Except.ok (Option.some.inj h3)
      · exact Or.inr h

/-- **C100 (marking).** Right after another angle, another axis, another dimension or place of a system, or `delMatrices`, the answer is
what the attributes give, whatever was done before. -/
theorem C100_after_mark (isX : Bool) (g : G) (c : Cmd) (h : Marks g c) : (ask isX (step isX g c)).1 = (ask isX (forget (step isX g c))).1 :=
  ask_of_open (step_marks isX g c h)

/-- **C100 (what is not noticed).** Once a gate has answered, a new phase or implementation, an added or removed system, a system around
it and a dissipator change nothing in what it answers. -/
theorem C100_quiet (isX : Bool) (g : G) (M : Mx) (h : (ask isX g).1 = .ok M) :
    ∀ cs : List Cmd, (∀ c ∈ cs, Quiet c) → (ask isX (run isX (step isX g .ask) cs)).1 = .ok M := by
  have h0 : (step isX g .ask).updated = false ∧ (step isX g .ask).matrix = some M := by
    show (ask isX g).2.updated = false ∧ (ask isX g).2.matrix = some M
    rcases ask_unfold isX g with ⟨e, _⟩ | ⟨N, hu, hm, e⟩
    · rw [e] at h ⊢
      unfold ask.compute at h ⊢
      cases hi : idDim g.toParams with
      | error e => rw [hi] at h; cases h
      | ok n =>
        rw [hi] at h
        simp only at h ⊢
        cases hc : create isX g.toParams with
        | error e => rw [hc] at h; cases h
        | ok U =>
          rw [hc] at h
          simp only at h ⊢
          cases hm : mulM (finish g.opened U) ⟨if g.opened = true then n * n else n, 1⟩ with
          | none => rw [hm] at h; cases h
          | some V =>
            rw [hm] at h
            exact ⟨rfl, congrArg some (Except.ok.inj h)⟩
    · rw [e] at h ⊢
      exact ⟨hu, by rw [hm, Except.ok.inj h]⟩
  revert h0
  generalize step isX g .ask = g₁
  intro h0 cs
  induction cs generalizing g₁ with
  | nil =>
    intro _
    show (ask isX g₁).1 = _
    unfold ask
    simp [h0.1, h0.2]
  | cons c r ih =>
    intro hq
    refine ih (step isX g₁ c) ?_ fun d hd => hq d (by simp [hd])
    have hc := hq c (by simp)
    have hn : ¬ Marks g₁ c := by cases c <;> first | exact fun h => h | exact hc.elim
    have ha : c ≠ .ask := by intro e; subst e; exact hc
    obtain ⟨e1, e2⟩ := step_not_marks isX g₁ c hn ha
    exact ⟨e1.trans h0.1, e2.trans h0.2⟩

/-- What creates the stored matrix is what would create it now. -/
def Fresh (isX : Bool) (g : G) : Prop :=
  g.updated = true ∨ g.matrix = none ∨ ∃ U, create isX g.toParams = .ok U ∧ g.matrix = some (finish g.opened U)

theorem step_fresh (isX : Bool) (g : G) (c : Cmd) (hq : ¬ Quiet c) (ho : OperOk g) (h : Fresh isX g) : Fresh isX (step isX g c) := by
  by_cases hm : Marks g c
  · rcases step_marks isX g c hm with h | h
    · exact Or.inl h
    · exact Or.inr (Or.inl h)
  · by_cases hc : c = .ask
    · subst hc
      rcases ask_unfold isX g with ⟨e, h'⟩ | ⟨M, _, _, e⟩
      · rcases compute_snd isX g with k | ⟨U, h1, h2⟩
        · have : step isX g .ask = g := by show (ask isX g).2 = g; rw [e, k]
          rw [this]; exact h
        · have : step isX g .ask = { g with updated := false, matrix := some (finish g.opened U) } := by
            show (ask isX g).2 = _
            rw [e, h2]
          rw [this]
          exact Or.inr (Or.inr ⟨U, h1, rfl⟩)
      · have : step isX g .ask = g := by show (ask isX g).2 = g; rw [e]
        rw [this]; exact h
    · have hp : (step isX g c).toParams = g.toParams := by
        cases c with
        | angle θ =>
          have : g.angle = some θ := not_not.1 hm
          simp only [step, ← this]
        | axis s =>
          have h1 : g.axis = some s := not_not.1 hm
          have h2 := ho s h1
          simp only [step, h2, ← h1]
        | place i s =>
          have : g.systems.map (fun x => if x.1 = i then (i, s) else x) = g.systems := by
            conv_rhs => rw [← List.map_id g.systems]
            apply List.map_congr_left
            intro x hx
            by_cases e : x.1 = i
            · have : x.2 = s := by
                by_contra hne
                exact hm ⟨x, hx, e, hne⟩
              rw [if_pos e, ← e, ← this]; rfl
            · rw [if_neg e]; rfl
          simp only [step, this]
        | touch => exact absurd trivial hm
        | drop => exact absurd trivial hm
        | ask => exact absurd rfl hc
        | _ => exact absurd trivial hq
      obtain ⟨e1, e2⟩ := step_not_marks isX g c hm hc
      unfold Fresh
      rw [hp, e1, e2]
      exact h

theorem run_fresh (isX : Bool) : ∀ (cs : List Cmd) (g : G), (∀ c ∈ cs, ¬ Quiet c) → OperOk g → Fresh isX g → Fresh isX (run isX g cs)
  | [], _, _, _, h => h
  | c :: r, g, hq, ho, h =>
    run_fresh isX r _ (fun d hd => hq d (by simp [hd])) (step_operOk isX g c ho) (step_fresh isX g c (hq c (by simp)) ho h)

theorem run_no_ask (isX : Bool) : ∀ (cs : List Cmd) (g : G), Cmd.ask ∉ cs → (g.updated = true ∨ g.matrix = none) →
    (run isX g cs).updated = true ∨ (run isX g cs).matrix = none
  | [], _, _, h => h
  | c :: r, g, hn, h => by
    refine run_no_ask isX r _ (fun hd => hn (by simp [hd])) ?_
    by_cases hm : Marks g c
    · exact step_marks isX g c hm
    · obtain ⟨e1, e2⟩ := step_not_marks isX g c hm (fun e => hn (by simp [e]))
      rw [e1, e2]; exact h

/-- **C100 (current answers).** A gate that is set up in any way, and then asked and changed only in its angle, its axis, the dimensions and
places of its systems and other parameters of theirs, answers every time what its attributes give then.  (Except where they give a
`ValueError`: see `C100_size_forgotten`.) -/
theorem C100_current_partial (isX : Bool) (setup cs : List Cmd) (hs : Cmd.ask ∉ setup) (hq : ∀ c ∈ cs, ¬ Quiet c) (g : G)
    (hg : g = run isX (new isX) (setup ++ cs)) (hv : (ask isX (forget g)).1 ≠ .error .value) :
    (ask isX g).1 = (ask isX (forget g)).1 := by
  have h0 : Fresh isX (run isX (new isX) setup) := by
    rcases run_no_ask isX setup (new isX) hs (Or.inl rfl) with h | h
    · exact Or.inl h
    · exact Or.inr (Or.inl h)
  have h1 := run_fresh isX cs _ hq (run_operOk isX setup _ (new_operOk isX)) h0
  rw [← run_append, ← hg] at h1
  rcases ask_unfold isX g with ⟨e, ho⟩ | ⟨M, hu, hM, e⟩
  · exact ask_of_open ho
  · rcases h1 with h | h | ⟨U, h2, h3⟩
    · exact ask_of_open (Or.inl h)
    · exact ask_of_open (Or.inr h)
    · rcases compute_of_create h2 with h | h
      · rw [h, e]
        rw [hM] at h3
        exact congrArg Except.ok (Option.some.inj h3)
      · exact absurd h hv

/-! ### Where a gate is not what it shows -/

/-- A qubit on its own. -/
def qubit : Sys := ⟨1, 2, 1⟩

/-- The place of a qubit on its own. -/
def qplace : QPlace 2 := ⟨1, 1, rfl⟩

theorem quiet_ok : ∀ (c : Cmd), Quiet c → ∀ d ∈ [c], Quiet d := by intro c h d hd; simp at hd; subst hd; exact h

/-- The gate of the examples: about `z`, on a qubit. -/
noncomputable def zGate (θ : ℝ) : List Cmd := [.add 0 qubit, .axis "z", .angle θ]

theorem parse_z : parseAxis "z" = some .z := by decide +kernel

theorem zGate_shows (isX : Bool) (θ : ℝ) (g : G) (hg : g = run isX (new isX) (zGate θ)) : Shows g.toParams .z θ [qplace.place] := by
  subst hg
  exact ⟨⟨"z", rfl, parse_z⟩, rfl, rfl, by simp, fun n h => by cases h⟩

theorem zGate_answer (isX : Bool) (θ : ℝ) :
    (ask isX (run isX (new isX) (zGate θ))).1 = .ok ⟨2, emb qplace.place (axisRotation .z θ)⟩ := by
  have h := C100_rotation isX (zGate θ) .z θ [qplace.place] _ rfl (zGate_shows isX θ _ rfl) (Or.inr rfl)
  have h1 : (ask isX (run isX (new isX) (zGate θ))).1 = (ask isX (forget (run isX (new isX) (zGate θ)))).1 :=
    C100_current_partial isX (zGate θ) [] (by simp [zGate]) (by simp) _ (by simp) (by rw [h]; intro e; cases e)
  rw [h1, h]
  have h2 := C44_gate_implementations .z θ [qplace]
  simp only [Toolbox.rotMat, Toolbox.instantFlip, List.map_cons, List.map_nil, List.foldl_nil, Option.some.injEq] at h2
  simp only [List.map_cons, List.map_nil, List.reverse_singleton, List.prod_singleton]
  rw [← h2]
  rfl

/-- A new phase is not noticed: asked with phase 1 and then with phase 0, the gate goes on rotating. -/
theorem C100_phase_stale : ∃ g : G, (ask false g).1 = (ask false (run false (step false g .ask) [.phase 0])).1 ∧
    (ask false (run false (step false g .ask) [.phase 0])).1 ≠ (ask false (forget (run false (step false g .ask) [.phase 0]))).1 := by
  have h1 := zGate_answer false Real.pi
  have h2 := C100_quiet false _ _ h1 [.phase 0] (quiet_ok _ trivial)
  refine ⟨run false (new false) (zGate Real.pi), h1.trans h2.symm, ?_⟩
  rw [h2]
  have h3 := C100_rotation false (zGate Real.pi ++ [.ask, .phase 0]) .z Real.pi [qplace.place]
    (run false (step false (run false (new false) (zGate Real.pi)) .ask) [.phase 0]) (by rw [run_append]; rfl)
    (by
      have e := ask_params false (run false (new false) (zGate Real.pi))
      have k := zGate_shows false Real.pi _ rfl
      rw [← e] at k
      exact ⟨k.axis, k.angle, k.systems, k.nonempty, k.around⟩) (Or.inl rfl)
  rw [h3]
  have ho : (run false (step false (run false (new false) (zGate Real.pi)) .ask) [.phase 0]).opened = false := by
    have e := ask_params false (run false (new false) (zGate Real.pi))
    exact (congrArg Params.opened e).trans rfl
  have hp : (run false (step false (run false (new false) (zGate Real.pi)) .ask) [.phase 0]).phase = 0 := rfl
  rw [ho, hp]
  intro e
  have e := Except.ok.inj e
  simp only [shown, List.map_cons, List.map_nil, List.reverse_singleton, List.prod_singleton, zero_mul, Complex.ofReal_zero,
    zero_smul, Bool.false_eq_true, if_false] at e
  have h0 : unitaryOp (0 : Op 2) 1 = 1 := by simp [unitaryOp]
  rw [h0] at e
  have e : emb qplace.place (axisRotation .z Real.pi) = 1 := eq_of_heq (Sigma.mk.inj e).2
  have : axisRotation .z Real.pi = (1 : Op 2) :=
    emb_injective qplace.place (by decide) (e.trans (emb_one _).symm)
  have := congrFun (congrFun this 0) 0
  simp [axisRotation, pauli, sigmaz] at this
  have h2 := congrArg Complex.re this
  simp at h2

/-- A gate that is opened after it was asked answers its matrix for states, not the map for density matrices. -/
theorem C100_open_stale (isX : Bool) (θ : ℝ) : ∃ g : G, g = run isX (new isX) (zGate θ ++ [.ask, .opens]) ∧
    (ask isX g).1 = .ok ⟨2, emb qplace.place (axisRotation .z θ)⟩ ∧ ∃ V : Op 4, (ask isX (forget g)).1 = .ok ⟨4, V⟩ := by
  have h1 := zGate_answer isX θ
  have h2 := C100_quiet isX _ _ h1 [.opens] (quiet_ok _ trivial)
  have e : run isX (new isX) (zGate θ ++ [.ask, .opens]) = run isX (step isX (run isX (new isX) (zGate θ)) .ask) [.opens] := by
    rw [run_append]; rfl
  refine ⟨_, rfl, by rw [e]; exact h2, ?_⟩
  have k := ask_params isX (run isX (new isX) (zGate θ))
  have hi : (run isX (step isX (run isX (new isX) (zGate θ)) .ask) [.opens]).impl = none := (congrArg Params.impl k).trans rfl
  have ho : (run isX (step isX (run isX (new isX) (zGate θ)) .ask) [.opens]).opened = true := rfl
  have h3 := C100_rotation isX (zGate θ ++ [.ask, .opens]) .z θ [qplace.place] _ rfl
    (by
      have k' := zGate_shows isX θ _ rfl
      rw [← k] at k'
      rw [e]
      exact ⟨k'.axis, k'.angle, k'.systems, k'.nonempty, k'.around⟩) (by rw [e]; exact Or.inr hi)
  rw [h3, e, ho]
  exact ⟨_, rfl⟩

/-- A gate that has lost its only system after it was asked goes on answering. -/
theorem C100_removed_stale (isX : Bool) (θ : ℝ) : ∃ g : G, g = run isX (new isX) (zGate θ ++ [.ask, .remove 0]) ∧
    (ask isX g).1 = .ok ⟨2, emb qplace.place (axisRotation .z θ)⟩ ∧ (ask isX (forget g)).1 = .error .index := by
  have h1 := zGate_answer isX θ
  have h2 := C100_quiet isX _ _ h1 [.remove 0] (quiet_ok _ trivial)
  have e : run isX (new isX) (zGate θ ++ [.ask, .remove 0]) = run isX (step isX (run isX (new isX) (zGate θ)) .ask) [.remove 0] := by
    rw [run_append]; rfl
  refine ⟨_, rfl, by rw [e]; exact h2, ?_⟩
  rw [e]
  have k := ask_params isX (run isX (new isX) (zGate θ))
  have k1 : (step isX (run isX (new isX) (zGate θ)) .ask).systems = [(0, qubit)] := (congrArg Params.systems k).trans rfl
  have k2 : (step isX (run isX (new isX) (zGate θ)) .ask).around = none := (congrArg Params.around k).trans rfl
  rw [ask_forget]
  unfold ask.compute
  have : idDim (forget (run isX (step isX (run isX (new isX) (zGate θ)) .ask) [.remove 0])).toParams = .error .index := by
    unfold idDim
    simp only [forget, run, step] at k1 k2 ⊢
    rw [k1, k2]
    rfl
  rw [this]

/-- A `SpinRotation` takes no notice of an implementation. -/
theorem C100_spinRotation_implementation (g : G) (s : Option String) :
    (ask false (forget (step false g (.impl s)))).1 = (ask false (forget g)).1 := by
  have hi : idDim (forget (step false g (.impl s))).toParams = idDim (forget g).toParams := rfl
  have hc : create false (forget (step false g (.impl s))).toParams = create false (forget g).toParams := rfl
  have ho : (forget (step false g (.impl s))).opened = (forget g).opened := rfl
  rw [ask_forget, ask_forget]
  exact compute_congr hi hc ho

/-- An axis that is none raises `ValueError` and is shown from then on, while a `SpinRotation` goes on rotating about the axis before. -/
theorem C100_bad_axis (g : G) (s : String) (hs : parseAxis s = none) :
    (step false g (.axis s)).axis = some s ∧ (ask false (forget (step false g (.axis s)))).1 = (ask false (forget g)).1 := by
  refine ⟨rfl, ?_⟩
  have hop : (step false g (.axis s)).oper = g.oper := by simp only [step, hs]; rfl
  have hr : rotMat (forget (step false g (.axis s))).toParams = rotMat (forget g).toParams := by
    have h1 : (forget (step false g (.axis s))).oper = (forget g).oper := hop
    unfold rotMat
    rw [h1]
    rfl
  have hi : idDim (forget (step false g (.axis s))).toParams = idDim (forget g).toParams := rfl
  have hc : create false (forget (step false g (.axis s))).toParams = create false (forget g).toParams := hr
  have ho : (forget (step false g (.axis s))).opened = (forget g).opened := rfl
  rw [ask_forget, ask_forget]
  exact compute_congr hi hc ho

/-- An `instant` gate on a system of three levels: the first question is a `ValueError`, every later one is answered by a rotation of a
two-level system. -/
theorem C100_size_forgotten (θ : ℝ) : ∃ g : G,
    g = run true (new true) [.add 0 ⟨1, 3, 1⟩, .impl (some "instant"), .angle θ] ∧ (ask true g).1 = .error .value ∧
    (ask true (step true g .ask)).1 = .ok ⟨2, emb qplace.place (axisRotation .x θ)⟩ := by
  refine ⟨_, rfl, ?_⟩
  have hi : isInstant "instant" = true := by decide +kernel
  have key : ask true (run true (new true) [.add 0 ⟨1, 3, 1⟩, .impl (some "instant"), .angle θ]) = (.error .value,
      { run true (new true) [.add 0 ⟨1, 3, 1⟩, .impl (some "instant"), .angle θ] with
        updated := false, matrix := some ⟨2, emb qplace.place (axisRotation .x θ)⟩ }) := by
    have hc : create true (run true (new true) [.add 0 ⟨1, 3, 1⟩, .impl (some "instant"), .angle θ]).toParams =
        .ok ⟨2, emb qplace.place (axisRotation .x θ)⟩ := by
      show (if isInstant "instant" = true then instantFlip _ else _) = _
      rw [if_pos hi]
      unfold instantFlip
      have h1 : (run true (new true) [.add 0 ⟨1, 3, 1⟩, .impl (some "instant"), .angle θ]).axis = some "x" := rfl
      have h2 : (run true (new true) [.add 0 ⟨1, 3, 1⟩, .impl (some "instant"), .angle θ]).systems.map Prod.snd = [⟨1, 3, 1⟩] := rfl
      have h3 : (run true (new true) [.add 0 ⟨1, 3, 1⟩, .impl (some "instant"), .angle θ]).angle = some θ := rfl
      simp only [h1, h2, h3, parse_x]
      rfl
    have hd : idDim (run true (new true) [.add 0 ⟨1, 3, 1⟩, .impl (some "instant"), .angle θ]).toParams = .ok 3 := rfl
    have hu : (run true (new true) [.add 0 ⟨1, 3, 1⟩, .impl (some "instant"), .angle θ]).updated = true := by
      show marked none (some θ) true = true
      unfold marked
      simp
    have ho : (run true (new true) [.add 0 ⟨1, 3, 1⟩, .impl (some "instant"), .angle θ]).opened = false := rfl
    unfold ask
    rw [if_pos hu]
    unfold ask.compute
    rw [hd, hc]
    simp only [ho, finish, Bool.false_eq_true, if_false, mulM_one]
    rfl
  refine ⟨by rw [key], ?_⟩
  show (ask true (ask true _).2).1 = _
  rw [key]
  rfl

/-! ### The systems of a gate -/

theorem mem_putSys (l : List (ℕ × Sys)) (i j : ℕ) (s : Sys) : j ∈ (putSys l i s).map Prod.fst ↔ j ∈ l.map Prod.fst ∨ j = i := by
  unfold putSys
  by_cases h : (l.any fun x => decide (x.1 = i)) = true
  · rw [if_pos h]
    have e : (l.map fun x => if x.1 = i then (i, s) else x).map Prod.fst = l.map Prod.fst := by
      rw [List.map_map]
      apply List.map_congr_left
      intro x _
      by_cases hx : x.1 = i
      · simp [hx]
      · simp [hx]
    rw [e]
    constructor
    · exact Or.inl
    · rintro (h' | rfl)
      · exact h'
      · obtain ⟨x, hx, hd⟩ := List.any_eq_true.1 h
        exact List.mem_map.2 ⟨x, hx, of_decide_eq_true hd⟩
  · rw [if_neg h]
    simp

/-- **C100 (systems).** After any history the systems of a gate are those that were added and not removed since. -/
theorem C100_systems (isX : Bool) (cs : List Cmd) (i : ℕ) : i ∈ (run isX (new isX) cs).systems.map Prod.fst ↔
    ∃ p q s, cs = p ++ Cmd.add i s :: q ∧ Cmd.remove i ∉ q := by
  induction cs using List.reverseRecOn with
  | nil =>
    constructor
    · intro h; cases h
    · rintro ⟨p, q, s, h, _⟩; simp at h
  | append_singleton cs c ih =>
    rw [run_append]
    have snoc : (∃ p q s, cs ++ [c] = p ++ Cmd.add i s :: q ∧ Cmd.remove i ∉ q) ↔
        ((∃ s, c = .add i s) ∨ ((∃ p q s, cs = p ++ Cmd.add i s :: q ∧ Cmd.remove i ∉ q) ∧ c ≠ .remove i)) := by
      constructor
      · rintro ⟨p, q, s, h, hn⟩
        rcases List.eq_nil_or_concat q with rfl | ⟨q', d, rfl⟩
        · have := List.append_inj' h rfl
          exact Or.inl ⟨s, (List.cons.inj this.2).1⟩
        · have h' : cs ++ [c] = (p ++ Cmd.add i s :: q') ++ [d] := by rw [h]; simp
          have := List.append_inj' h' rfl
          have hd : c = d := (List.cons.inj this.2).1
          refine Or.inr ⟨⟨p, q', s, this.1, fun k => hn (by simp [k])⟩, ?_⟩
          rintro rfl
          exact hn (by simp [← hd])
      · rintro (⟨s, rfl⟩ | ⟨⟨p, q, s, rfl, hn⟩, hc⟩)
        · exact ⟨cs, [], s, rfl, by simp⟩
        · refine ⟨p, q ++ [c], s, by simp, ?_⟩
          simp only [List.mem_append, List.mem_singleton, not_or]
          exact ⟨hn, fun e => hc e.symm⟩
    rw [snoc, ← ih]
    show i ∈ (step isX (run isX (new isX) cs) c).systems.map Prod.fst ↔ _
    generalize run isX (new isX) cs = g
    cases c with
    | add j s =>
      show i ∈ (putSys g.systems j s).map Prod.fst ↔ _
      rw [mem_putSys]
      constructor
      · rintro (h | rfl)
        · exact Or.inr ⟨h, by simp⟩
        · exact Or.inl ⟨s, rfl⟩
      · rintro (⟨t, h⟩ | ⟨h, _⟩)
        · exact Or.inr (Cmd.add.inj h).1.symm
        · exact Or.inl h
    | remove j =>
      show i ∈ (g.systems.filter fun x => decide (x.1 ≠ j)).map Prod.fst ↔ _
      constructor
      · intro h
        obtain ⟨x, hx, rfl⟩ := List.mem_map.1 h
        rw [List.mem_filter] at hx
        refine Or.inr ⟨List.mem_map.2 ⟨x, hx.1, rfl⟩, ?_⟩
        intro e
        exact of_decide_eq_true hx.2 (Cmd.remove.inj e).symm
      · rintro (⟨t, h⟩ | ⟨h, hc⟩)
        · cases h
        · obtain ⟨x, hx, rfl⟩ := List.mem_map.1 h
          refine List.mem_map.2 ⟨x, List.mem_filter.2 ⟨hx, ?_⟩, rfl⟩
          exact decide_eq_true fun e => hc (by rw [e])
    | place j s =>
      have e : (step isX g (.place j s)).systems.map Prod.fst = g.systems.map Prod.fst := by
        show (g.systems.map fun x => if x.1 = j then (j, s) else x).map Prod.fst = _
        rw [List.map_map]
        apply List.map_congr_left
        intro x _
        by_cases hx : x.1 = j
        · simp [hx]
        · simp [hx]
      rw [e]
      simp
    | ask =>
      have e : (step isX g .ask).systems = g.systems := congrArg Params.systems (ask_params isX g)
      rw [e]
      simp
    | _ => simp [step]

/-- **C100 (order).** A system that is added comes last; one that the gate already has keeps its place. -/
theorem C100_order (isX : Bool) (g : G) (i : ℕ) (s : Sys) :
    (i ∉ g.systems.map Prod.fst → (step isX g (.add i s)).systems = g.systems ++ [(i, s)]) ∧
    (i ∈ g.systems.map Prod.fst → (step isX g (.add i s)).systems.map Prod.fst = g.systems.map Prod.fst) := by
  constructor
  · intro h
    show putSys g.systems i s = _
    unfold putSys
    refine if_neg fun k => h ?_
    obtain ⟨x, hx, hd⟩ := List.any_eq_true.1 k
    exact List.mem_map.2 ⟨x, hx, of_decide_eq_true hd⟩
  · intro h
    show (putSys g.systems i s).map Prod.fst = _
    unfold putSys
    obtain ⟨x, hx, hd⟩ := List.mem_map.1 h
    rw [if_pos (List.any_eq_true.2 ⟨x, hx, decide_eq_true hd⟩), List.map_map]
    apply List.map_congr_left
    intro y _
    by_cases hy : y.1 = i
    · simp [hy]
    · simp [hy]

/-! ### Examples -/

/-- Two rotations of two qubits side by side, then a new angle: the answer follows. -/
example (θ φ : ℝ) : ∃ g : G, g = run false (new false) [.add 0 ⟨1, 2, 2⟩, .add 1 ⟨2, 2, 1⟩, .axis "y", .angle θ, .ask, .angle φ] ∧
    (ask false g).1 = .ok ⟨4, unitaryOp (((1 * φ : ℝ) : ℂ) • emb (⟨2, 2, 1, rfl⟩ : Place 4) (spinOfDim .y 2)) 1 *
      unitaryOp (((1 * φ : ℝ) : ℂ) • emb (⟨1, 2, 2, rfl⟩ : Place 4) (spinOfDim .y 2)) 1⟩ := by
  have py : parseAxis "y" = some .y := by decide +kernel
  have k := ask_params false (run false (new false) [.add 0 ⟨1, 2, 2⟩, .add 1 ⟨2, 2, 1⟩, .axis "y", .angle θ])
  refine ⟨_, rfl, ?_⟩
  have hs : Shows (run false (new false) [.add 0 ⟨1, 2, 2⟩, .add 1 ⟨2, 2, 1⟩, .axis "y", .angle θ, .ask, .angle φ]).toParams .y φ
      [(⟨1, 2, 2, rfl⟩ : Place 4), ⟨2, 2, 1, rfl⟩] :=
    ⟨⟨"y", (congrArg Params.axis k).trans rfl, py⟩, rfl, (congrArg (fun p => p.systems.map Prod.snd) k).trans rfl, by simp,
      fun n hn => by have := (congrArg Params.around k).symm.trans hn; cases this⟩
  have h1 := C100_rotation false _ .y φ _ _ rfl hs (Or.inl rfl)
  have h2 : (ask false (run false (new false) [.add 0 ⟨1, 2, 2⟩, .add 1 ⟨2, 2, 1⟩, .axis "y", .angle θ, .ask, .angle φ])).1 = _ :=
    C100_current_partial false [.add 0 ⟨1, 2, 2⟩, .add 1 ⟨2, 2, 1⟩, .axis "y", .angle θ] [.ask, .angle φ] (by simp)
      (by intro c hc; simp at hc; rcases hc with rfl | rfl <;> exact fun h => h) _ rfl (by erw [h1]; intro e; cases e)
  rw [h2, h1]
  have ho : (run false (new false) [.add 0 ⟨1, 2, 2⟩, .add 1 ⟨2, 2, 1⟩, .axis "y", .angle θ, .ask, .angle φ]).opened = false :=
    (congrArg Params.opened k).trans rfl
  have hp : (run false (new false) [.add 0 ⟨1, 2, 2⟩, .add 1 ⟨2, 2, 1⟩, .axis "y", .angle θ, .ask, .angle φ]).phase = 1 :=
    (congrArg Params.phase k).trans rfl
  rw [ho, hp]
  simp [shown]

/-- The same history, asked before the last command: what is answered is marked by the new angle. -/
example (g : G) (h : g.angle = some 1) : (ask false (step false g (.angle 2))).1 = (ask false (forget (step false g (.angle 2)))).1 :=
  C100_after_mark false g (.angle 2) (by show g.angle ≠ some 2; rw [h]; norm_num)

/-- Two systems at equal places are two systems; one is removed and comes back at the end. -/
example : (run false (new false) [.add 0 qubit, .add 1 qubit, .remove 0, .add 0 qubit]).systems.map Prod.fst = [1, 0] := rfl

example : parseAxis "q" = none := by decide +kernel

end Verif.Gate
