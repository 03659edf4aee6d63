import Verif.Toolbox.Thermo
import Verif.Toolbox.Boson
import Verif.Toolbox.EvolutionProps

/-!
# C66: thermal baths and dissipators

Source: `/repo/src/quanguru/classes/environment.py`.
-/
namespace Verif.Env.Bath
open Verif.Toolbox Verif.Toolbox.Thermo

/-! ## Model -/

/-- A bath: made by the user, or the one every dissipator makes for itself (`environment.py:65`). -/
inductive BathId where
  | user (b : ℕ)
  | own (d : ℕ)
deriving DecidableEq

/-- `thermalBath` (`environment.py:117-201`): `temperature`, `charFreq`, the stored `nbar`, `_paramUpdated`
(`True` in a new object, `baseClasses.py:143`), and the names in `subSys`. -/
structure Bath where
  temperature : ℝ := 0
  charFreq : ℝ := 1
  nbar : ℝ := 0
  updated : Bool := true
  subSys : List ℕ := []

/-- `dissipatorObj` (`environment.py:50-115`): `type`, the private rate and the bath. Not modelled: the jump operator, and the marks sent to
the protocols. -/
structure Diss where
  type : ℝ := 1
  rate : ℝ := 0
  bath : BathId

/-- The baths, the dissipators, and for every system the dictionary `__dissipator` of its free evolution. -/
structure Env where
  baths : BathId → Bath := fun _ => {}
  diss : ℕ → Diss := fun d => { bath := .own d }
  stored : ℕ → ℕ → Option ℝ := fun _ _ => none

/-- What a user does. -/
inductive Action where
  /-- `bath.temperature = t` -/
  | temperature (b : BathId) (t : ℝ)
  /-- `dissipator.temperature = t` (`environment.py:75-77`) -/
  | dissTemperature (d : ℕ) (t : ℝ)
  /-- `bath.charFreq = w` -/
  | charFreq (b : BathId) (w : ℝ)
  /-- `bath.dissipator = d` -/
  | attach (b : BathId) (d : ℕ)
  /-- `dissipator.jRate = r` -/
  | rate (d : ℕ) (r : ℝ)
  /-- `dissipator.type = k` -/
  | type (d : ℕ) (k : ℝ)
  /-- `dissipator.system = s` -/
  | system (d s : ℕ)
  /-- reading `bath.nBar` -/
  | readNBar (b : BathId)

/-- Writing one bath. -/
def Env.setBath (e : Env) (b : BathId) (x : Bath) : Env := { e with baths := Function.update e.baths b x }

/-- Writing one dissipator. -/
def Env.setDiss (e : Env) (d : ℕ) (x : Diss) : Env := { e with diss := Function.update e.diss d x }

open Classical in
/-- `temperature.setter` (`environment.py:177-179`) through `setAttr` (`QSimBase.py:39-47`): marked if the value is new. -/
noncomputable def setTemperature (e : Env) (b : BathId) (t : ℝ) : Env :=
  let x := e.baths b
  if t ≠ x.temperature then e.setBath b { x with temperature := t, updated := true } else e

open Classical in
/-- `charFreq.setter` (`environment.py:188-190`). -/
noncomputable def setCharFreq (e : Env) (b : BathId) (w : ℝ) : Env :=
  let x := e.baths b
  if w ≠ x.charFreq then e.setBath b { x with charFreq := w, updated := true } else e

/-- `nBar` (`environment.py:192-201`). An exception leaves the stored number and the mark as they are. -/
noncomputable def nBar (e : Env) (b : BathId) : Env × Except Err ℝ :=
  let x := e.baths b
  if x.updated then
    match nBarThermal x.charFreq x.temperature with
    | .error err => (e, .error err)
    | .ok n => (e.setBath b { x with nbar := n, updated := false }, .ok n)
  else (e, .ok x.nbar)

/-- `jRate` (`environment.py:88-90`). -/
noncomputable def jRate (e : Env) (d : ℕ) : Env × Except Err ℝ :=
  let (e', r) := nBar e (e.diss d).bath
  match r with
  | .error err => (e', .error err)
  | .ok n => (e', .ok ((e.diss d).rate * (n + (e.diss d).type)))

/-- `dissipatorObj.superSys.setter` and `addToProtocol` (`environment.py:79-86`): the rate is read and stored once. -/
noncomputable def setSystem (e : Env) (d s : ℕ) : Env :=
  match jRate e d with
  | (e', .error _) => e'
  | (e', .ok r) => { e' with stored := Function.update e'.stored s (Function.update (e'.stored s) d (some r)) }

/-- One action; the `subSys` setter of the bath (`environment.py:159-163`) empties the dictionary first (`base.py:653-656`). -/
noncomputable def step (e : Env) : Action → Env
  | .temperature b t => setTemperature e b t
  | .dissTemperature d t => setTemperature e (e.diss d).bath t
  | .charFreq b w => setCharFreq e b w
  | .attach b d => (e.setBath b { e.baths b with subSys := [d] }).setDiss d { e.diss d with bath := b }
  | .rate d r => e.setDiss d { e.diss d with rate := r }
  | .type d k => e.setDiss d { e.diss d with type := k }
  | .system d s => setSystem e d s
  | .readNBar b => (nBar e b).1

/-- A history, from new objects. -/
noncomputable def run (as : List Action) : Env := as.foldl step {}

/-! ## Average excitation numbers -/

/-- The stored number is right unless the bath is marked. -/
def Fresh (e : Env) : Prop :=
  ∀ b, (e.baths b).updated = false → nBarThermal (e.baths b).charFreq (e.baths b).temperature = .ok (e.baths b).nbar

theorem fresh_setBath (e : Env) (h : Fresh e) (b : BathId) (x : Bath)
    (hx : x.updated = false → nBarThermal x.charFreq x.temperature = .ok x.nbar) : Fresh (e.setBath b x) := by
  intro b' hb'
  by_cases hb : b' = b
  · subst hb
    simp only [Env.setBath, Function.update_self] at hb' ⊢
    exact hx hb'
  · simp only [Env.setBath, Function.update_of_ne hb] at hb' ⊢
    exact h b' hb'

theorem fresh_setTemperature (e : Env) (h : Fresh e) (b : BathId) (t : ℝ) : Fresh (setTemperature e b t) := by
  simp only [setTemperature]
  split
  · exact fresh_setBath e h b _ (by simp)
  · exact h

theorem fresh_nBar (e : Env) (h : Fresh e) (b : BathId) : Fresh (nBar e b).1 := by
  simp only [nBar]
  split
  · split
    · exact h
    · rename_i n hn
      exact fresh_setBath e h b _ (fun _ => hn)
  · exact h

theorem fresh_jRate (e : Env) (h : Fresh e) (d : ℕ) : Fresh (jRate e d).1 := by
  have := fresh_nBar e h (e.diss d).bath
  rw [jRate]
  generalize nBar e (e.diss d).bath = p at *
  obtain ⟨e', r⟩ := p
  cases r <;> exact this

theorem fresh_step (e : Env) (h : Fresh e) (a : Action) : Fresh (step e a) := by
  cases a with
  | temperature b t => exact fresh_setTemperature e h b t
  | dissTemperature d t => exact fresh_setTemperature e h _ t
  | charFreq b w =>
    simp only [step, setCharFreq]
    split
    · exact fresh_setBath e h b _ (by simp)
    · exact h
  | attach b d => exact fresh_setBath e h b _ (h b)
  | rate d r => exact h
  | type d k => exact h
  | system d s =>
    have := fresh_jRate e h d
    simp only [step, setSystem]
    generalize jRate e d = p at *
    obtain ⟨e', r⟩ := p
    cases r <;> exact this
  | readNBar b => exact fresh_nBar e h b

theorem fresh_run (as : List Action) : Fresh (run as) := by
  have : ∀ (as : List Action) (e : Env), Fresh e → Fresh (as.foldl step e) := by
    intro as
    induction as with
    | nil => intro e h; exact h
    | cons a as ih => intro e h; exact ih _ (fresh_step e h a)
  exact this as {} (by intro b hb; simp at hb)

theorem nBar_eq (e : Env) (h : Fresh e) (b : BathId) : (nBar e b).2 = nBarThermal (e.baths b).charFreq (e.baths b).temperature := by
  simp only [nBar]
  split
  · split
    · rename_i hn; rw [hn]
    · rename_i hn; rw [hn]
  · rename_i hu
    exact (h b (by simpa using hu)).symm

/-- **C66 (number).** After any history `nBar` is `nBarThermal` of the current frequency and temperature, including its exceptions. -/
theorem C66_nbar (as : List Action) (b : BathId) :
    (nBar (run as) b).2 = nBarThermal ((run as).baths b).charFreq ((run as).baths b).temperature := nBar_eq _ (fresh_run as) b

/-- The rate which the current parameters ask for. -/
noncomputable def wanted (e : Env) (d : ℕ) : Except Err ℝ :=
  (nBarThermal (e.baths (e.diss d).bath).charFreq (e.baths (e.diss d).bath).temperature).map fun n => (e.diss d).rate * (n + (e.diss d).type)

theorem jRate_eq (e : Env) (h : Fresh e) (d : ℕ) : (jRate e d).2 = wanted e d := by
  have hb := nBar_eq e h (e.diss d).bath
  rw [jRate, wanted, ← hb]
  generalize nBar e (e.diss d).bath = p
  obtain ⟨e', r⟩ := p
  cases r <;> rfl

/-- **C66 (rate).** After any history `jRate` is the rate times `n + type`, with the current values. -/
theorem C66_jRate (as : List Action) (d : ℕ) : (jRate (run as) d).2 = wanted (run as) d := jRate_eq _ (fresh_run as) d

/-! ## The rate in effect -/

theorem nBar_rest (e : Env) (b : BathId) : (nBar e b).1.diss = e.diss ∧ (nBar e b).1.stored = e.stored ∧
    ∀ b', ((nBar e b).1.baths b').charFreq = (e.baths b').charFreq ∧ ((nBar e b).1.baths b').temperature = (e.baths b').temperature := by
  simp only [nBar]
  split
  · split
    · simp
    · refine ⟨rfl, rfl, ?_⟩
      intro b'
      by_cases hb : b' = b
      · subst hb; simp [Env.setBath]
      · simp [Env.setBath, Function.update_of_ne hb]
  · simp

theorem jRate_rest (e : Env) (d : ℕ) : (jRate e d).1 = (nBar e (e.diss d).bath).1 := by
  rw [jRate]
  generalize nBar e (e.diss d).bath = p
  obtain ⟨e', r⟩ := p
  cases r <;> rfl

theorem setSystem_stored (e : Env) (h : Fresh e) (d s : ℕ) : (setSystem e d s).stored = match wanted e d with
    | .error _ => e.stored
    | .ok r => Function.update e.stored s (Function.update (e.stored s) d (some r)) := by
  have h1 := jRate_eq e h d
  have h2 : (jRate e d).1.stored = e.stored := by rw [jRate_rest]; exact (nBar_rest e _).2.1
  rw [setSystem, ← h1]
  generalize jRate e d = p at *
  obtain ⟨e', r⟩ := p
  simp only at h2
  cases r with
  | error err => exact h2
  | ok r => simp [h2]

theorem setSystem_wanted (e : Env) (d s d' : ℕ) : wanted (setSystem e d s) d' = wanted e d' := by
  have h : ∀ e' : Env, (e'.diss = e.diss ∧ ∀ b', (e'.baths b').charFreq = (e.baths b').charFreq ∧
      (e'.baths b').temperature = (e.baths b').temperature) → wanted e' d' = wanted e d' := by
    rintro e' ⟨h1, h2⟩
    rw [wanted, wanted, h1, (h2 _).1, (h2 _).2]
  apply h
  have := jRate_rest e d
  obtain ⟨n1, _, n3⟩ := nBar_rest e (e.diss d).bath
  rw [setSystem]
  generalize jRate e d = p at *
  obtain ⟨e', r⟩ := p
  simp only at this
  subst this
  cases r
  · exact ⟨n1, n3⟩
  · exact ⟨n1, n3⟩

theorem step_stored (e : Env) (h : Fresh e) (a : Action) (d s : ℕ) (ha : a ≠ .system d s) : (step e a).stored s d = e.stored s d := by
  cases a with
  | temperature b t => simp only [step, setTemperature]; split <;> rfl
  | dissTemperature d t => simp only [step, setTemperature]; split <;> rfl
  | charFreq b w => simp only [step, setCharFreq]; split <;> rfl
  | attach b d => rfl
  | rate d r => rfl
  | type d k => rfl
  | system d' s' =>
    rw [step, setSystem_stored e h]
    split
    · rfl
    · by_cases hs : s = s'
      · subst hs
        by_cases hd : d = d'
        · subst hd; exact absurd rfl ha
        · simp [Function.update_of_ne hd]
      · simp [Function.update_of_ne hs]
  | readNBar b => simp only [step]; rw [(nBar_rest e b).2.1]

/-- **C66 (in effect, exact).** What the free evolution of system `s` uses for dissipator `d` is the rate wanted at the moment of the last
assignment of the system; nothing done afterwards changes it. -/
theorem C66_in_effect (as bs : List Action) (d s : ℕ) (r : ℝ) (hr : wanted (run as) d = .ok r) (hbs : .system d s ∉ bs) :
    (run (as ++ .system d s :: bs)).stored s d = some r := by
  have h1 : (run (as ++ [.system d s])).stored s d = some r := by
    simp only [run, List.foldl_append, List.foldl_cons, List.foldl_nil, step]
    rw [setSystem_stored (List.foldl step {} as) (fresh_run as)]
    have : wanted (List.foldl step {} as) d = .ok r := hr
    rw [this]
    simp
  have : ∀ (bs : List Action) (e : Env), Fresh e → .system d s ∉ bs → (bs.foldl step e).stored s d = e.stored s d := by
    intro bs
    induction bs with
    | nil => intro e _ _; rfl
    | cons a bs ih =>
      intro e he hb
      rw [List.foldl_cons, ih _ (fresh_step e he a) (by simp_all)]
      exact step_stored e he a d s (by rintro rfl; simp at hb)
  have h2 := this bs _ (fresh_run (as ++ [.system d s])) hbs
  rw [h1] at h2
  rw [← h2]
  simp [run, List.foldl_append]

/-- **C66.** The rate in effect is the wanted one right after the system has been assigned. Missing: any later change, see
`C66_temperature_ignored`. -/
theorem C66_current_partial (as : List Action) (d s : ℕ) (r : ℝ) (hr : wanted (run (as ++ [.system d s])) d = .ok r) :
    (run (as ++ [.system d s])).stored s d = some r := by
  have : wanted (run (as ++ [.system d s])) d = wanted (run as) d := by
    simp only [run, List.foldl_append, List.foldl_cons, List.foldl_nil, step]
    exact setSystem_wanted _ d s d
  exact C66_in_effect as [] d s r (this ▸ hr) (by simp)

/-- **C66 (temperature ignored).** A change of the temperature after the system was assigned has no effect: the rate in effect differs from the
wanted one for all positive frequencies and temperatures and every non-zero rate. -/
theorem C66_temperature_ignored (b d s : ℕ) (w T T' g : ℝ) (hw : 0 < w) (hT : 0 < T) (hTT : T < T') (hg : g ≠ 0) :
    let as : List Action := [.charFreq (.user b) w, .temperature (.user b) T, .attach (.user b) d, .rate d g, .system d s,
      .temperature (.user b) T']
    ∃ r r', (run as).stored s d = some r ∧ wanted (run as) d = .ok r' ∧ r ≠ r' := by
  intro as
  obtain ⟨n, n', h1, h2, h3⟩ := C62_nbar_monotone (w := w) (h := 1) (k := 1) (by simpa using hw) one_pos hT hTT
  have ht : ∀ (e : Env) (b : BathId) (t : ℝ), ((setTemperature e b t).baths b).temperature = t ∧
      ((setTemperature e b t).baths b).charFreq = (e.baths b).charFreq ∧ (setTemperature e b t).diss = e.diss := by
    intro e b t
    simp only [setTemperature]
    split
    · simp [Env.setBath]
    · rename_i h; simp only [ne_eq, not_not] at h; exact ⟨h.symm, rfl, rfl⟩
  have hf : ∀ (e : Env) (b : BathId) (t : ℝ), ((setCharFreq e b t).baths b).charFreq = t ∧ (setCharFreq e b t).diss = e.diss := by
    intro e b t
    simp only [setCharFreq]
    split
    · simp [Env.setBath]
    · rename_i h; simp only [ne_eq, not_not] at h; exact ⟨h.symm, rfl⟩
  set e0 := run [.charFreq (.user b) w, .temperature (.user b) T, .attach (.user b) d, .rate d g] with he0
  have hd : e0.diss d = ⟨1, g, .user b⟩ := by
    simp [he0, run, step, Env.setDiss, Env.setBath, (ht _ _ _).2.2, (hf _ _ _).2]
  have hbt : (e0.baths (.user b)).temperature = T ∧ (e0.baths (.user b)).charFreq = w := by
    simp [he0, run, step, Env.setDiss, Env.setBath, (ht _ _ _).1, (ht _ _ _).2.1, (hf _ _ _).1]
  have hw0 : wanted e0 d = .ok (g * (n + 1)) := by
    rw [wanted, hd, hbt.1, hbt.2, h1]; rfl
  have hs := C66_in_effect [.charFreq (.user b) w, .temperature (.user b) T, .attach (.user b) d, .rate d g]
    [.temperature (.user b) T'] d s _ hw0 (by simp)
  refine ⟨g * (n + 1), g * (n' + 1), hs, ?_, ?_⟩
  · have e1 : run as = setTemperature (setSystem e0 d s) (.user b) T' := rfl
    have e2 : (setSystem e0 d s).diss = e0.diss ∧ ((setSystem e0 d s).baths (.user b)).charFreq = (e0.baths (.user b)).charFreq := by
      have := jRate_rest e0 d
      obtain ⟨m1, _, m3⟩ := nBar_rest e0 (e0.diss d).bath
      rw [setSystem]
      generalize jRate e0 d = p at *
      obtain ⟨e', r⟩ := p
      simp only at this
      subst this
      cases r
      · exact ⟨m1, (m3 _).1⟩
      · exact ⟨m1, (m3 _).1⟩
    rw [wanted, e1, (ht _ _ _).2.2, e2.1, hd]
    simp only
    rw [(ht _ _ _).1, (ht _ _ _).2.1, e2.2, hbt.2, h2]
    rfl
  · intro h
    have := mul_left_cancel₀ hg h
    linarith

/-- **C66 (order of arguments).** `dissipatorObj(system=s, ..., jRate=g)`, the order used inside the library (`environment.py:149`),
puts the rate zero into effect; `dissipatorObj(jRate=g, system=s, ...)` puts `g` into effect. -/
theorem C66_argument_order (d s : ℕ) (g : ℝ) :
    (run [.system d s, .rate d g]).stored s d = some 0 ∧ wanted (run [.system d s, .rate d g]) d = .ok g ∧
    (run [.rate d g, .system d s]).stored s d = some g := by
  have hn : nBarThermal 1 0 = .ok 0 := by simp [nBarThermal]
  have w0 : wanted (run []) d = .ok 0 := by
    rw [wanted]
    simp only [run, List.foldl_nil, hn]
    simp [Except.map]
  have w1 : wanted (run [.rate d g]) d = .ok g := by
    rw [wanted]
    simp [run, step, Env.setDiss, hn, Except.map]
  refine ⟨C66_in_effect [] [.rate d g] d s 0 w0 (by simp), ?_, C66_in_effect [.rate d g] [] d s g w1 (by simp)⟩
  have e1 : ((run [.system d s]).diss d) = ⟨1, 0, .own d⟩ ∧ ((run [.system d s]).baths (.own d)).temperature = 0 ∧
      ((run [.system d s]).baths (.own d)).charFreq = 1 := by
    simp [run, step, setSystem, jRate, nBar, hn, Env.setBath]
  have e2 : run [.system d s, .rate d g] = step (run [.system d s]) (.rate d g) := rfl
  rw [wanted, e2]
  simp only [step, Env.setDiss, Function.update_self, e1.1, e1.2.1, e1.2.2, hn]
  simp [Except.map]

/-! ## Several dissipators -/

/-- **C66 (members).** A bath keeps only the last dissipator given to it in `subSys`, although all of them use its temperature. -/
theorem C66_members (as : List Action) (b : BathId) (d d' : ℕ) (h : d ≠ d') :
    ((run (as ++ [.attach b d, .attach b d'])).baths b).subSys = [d'] ∧
    ((run (as ++ [.attach b d, .attach b d'])).diss d).bath = b ∧ ((run (as ++ [.attach b d, .attach b d'])).diss d').bath = b := by
  simp [run, List.foldl_append, step, Env.setBath, Env.setDiss, Function.update_of_ne h]

/-- **C66 (shared temperature).** Assigning the temperature of one dissipator changes that of every dissipator of the same bath. -/
theorem C66_shared (as : List Action) (d d' : ℕ) (t : ℝ) (h : ((run as).diss d).bath = ((run as).diss d').bath) :
    ((run (as ++ [.dissTemperature d t])).baths ((run (as ++ [.dissTemperature d t])).diss d').bath).temperature = t := by
  simp only [run, List.foldl_append, List.foldl_cons, List.foldl_nil, step, setTemperature] at h ⊢
  split
  · simp [Env.setBath, h]
  · rename_i hne
    simp only [ne_eq, not_not] at hne
    rw [← h]; exact hne.symm

/-- Detailed balance of the wanted rates of an emitting (`type` one) and an absorbing (`type` zero) dissipator on the same bath. -/
theorem C66_balance (as : List Action) (d d' : ℕ) (g : ℝ) (hd : (run as).diss d = ⟨1, g, ((run as).diss d).bath⟩)
    (hd' : (run as).diss d' = ⟨0, g, ((run as).diss d).bath⟩)
    (hx : 0 < ((run as).baths ((run as).diss d).bath).charFreq / ((run as).baths ((run as).diss d).bath).temperature) :
    ∃ r r', wanted (run as) d = .ok r ∧ wanted (run as) d' = .ok r' ∧
      r' = Real.exp (-(((run as).baths ((run as).diss d).bath).charFreq / ((run as).baths ((run as).diss d).bath).temperature)) * r := by
  obtain ⟨n, h1, h2, h3⟩ := C62_nbar_balance (w := ((run as).baths ((run as).diss d).bath).charFreq)
    (T := ((run as).baths ((run as).diss d).bath).temperature) (h := 1) (k := 1) (by simpa using hx)
  refine ⟨g * (n + 1), g * n, ?_, ?_, ?_⟩
  · rw [wanted, hd]; simp only; rw [h1]; rfl
  · rw [wanted, hd']; simp only; rw [h1]; simp [Except.map]
  · simp only [one_mul, mul_one] at h3
    have hn : n + 1 ≠ 0 := by linarith
    rw [← h3]; field_simp

/-! ## Thermal states do not change -/

open Matrix

/-- An operator `A` that lowers the energy by one quantum (`A rho = q rho A`): the state does not change under emission with
rate `g (n + 1)` and absorption with rate `g n`, `n = q (n + 1)`. -/
theorem C66_stationary {m : ℕ} (H A rho : Op m) (q g n : ℝ) (hn : n = q * (n + 1)) (hr : rhoᴴ = rho) (hH : H * rho = rho * H)
    (hA : A * rho = (q : ℂ) • (rho * A)) (L : Op (m * m))
    (hL : Liouvillian (some H) (some [.op A, .op Aᴴ]) (some [g * (n + 1), g * n]) = some L) : act L rho = 0 := by
  have hA' : rho * Aᴴ = (q : ℂ) • (Aᴴ * rho) := by
    have := congrArg conjTranspose hA
    rw [conjTranspose_mul, conjTranspose_smul, conjTranspose_mul, hr] at this
    simpa using this
  have hL' : L = hamPart (some H) + ((g * (n + 1) : ℝ) : ℂ) • dissipator A none false + ((g * n : ℝ) : ℂ) • dissipator Aᴴ none false := by
    simp only [Liouvillian, addCollapse, collapsePart] at hL
    simpa using hL.symm
  have hnC : (n : ℂ) = q * (n + 1) := by exact_mod_cast hn
  have e1 : (q : ℂ) • (rho * (A * Aᴴ)) = A * rho * Aᴴ := by rw [hA, Matrix.smul_mul, Matrix.mul_assoc]
  have e2 : (q : ℂ) • (Aᴴ * rho * A) = Aᴴ * A * rho := by
    rw [Matrix.mul_assoc Aᴴ A, hA, Matrix.mul_smul, Matrix.mul_assoc]
  have e3 : rho * (Aᴴ * A) = Aᴴ * A * rho := by
    rw [← Matrix.mul_assoc, hA', Matrix.smul_mul, e2]
  have e4 : (q : ℂ) • (A * Aᴴ * rho) = A * rho * Aᴴ := by
    rw [Matrix.mul_assoc A rho, hA', Matrix.mul_smul, Matrix.mul_assoc]
  rw [hL', act_add, act_add, act_smul, act_smul, act_hamPart, hH, sub_self, smul_zero, zero_add, act_dissipator, act_dissipator,
    conjTranspose_conjTranspose, e3]
  have f1 : (n : ℂ) • (rho * (A * Aᴴ)) = ((n : ℂ) + 1) • (A * rho * Aᴴ) := by rw [← e1, smul_smul, mul_comm, ← hnC]
  have f2 : (n : ℂ) • (Aᴴ * rho * A) = ((n : ℂ) + 1) • (Aᴴ * A * rho) := by rw [← e2, smul_smul, mul_comm, ← hnC]
  have f3 : (n : ℂ) • (A * Aᴴ * rho) = ((n : ℂ) + 1) • (A * rho * Aᴴ) := by rw [← e4, smul_smul, mul_comm, ← hnC]
  have f4 : ((g * n : ℝ) : ℂ) • (Aᴴ * rho * A - (1 / 2 : ℂ) • (A * Aᴴ * rho + rho * (A * Aᴴ))) =
      (g : ℂ) • ((n : ℂ) • (Aᴴ * rho * A) - (1 / 2 : ℂ) • ((n : ℂ) • (A * Aᴴ * rho) + (n : ℂ) • (rho * (A * Aᴴ)))) := by
    push_cast
    module
  simp only [Bool.false_eq_true, if_false, add_zero, one_smul]
  rw [f4, f1, f2, f3]
  push_cast
  module

theorem exp_fixed {m : ℕ} (L : Op (m * m)) (rho : Op m) (h : act L rho = 0) (t : ℝ) :
    vec2Mat (NormedSpace.exp ((t : ℂ) • L) * mat2Vec rho) = rho := by
  have h0 : L * mat2Vec rho = 0 := by
    rw [← mat2Vec_act, h]
    ext a b
    simp [mat2Vec]
  have h1 : (mat2Vec rho)ᵀ * ((t : ℂ) • L)ᵀ = (0 : Matrix (Fin 1) (Fin 1) ℂ) * (mat2Vec rho)ᵀ := by
    rw [← transpose_mul, Matrix.smul_mul, h0]; simp
  have h2 := mul_exp_of_intertwine _ _ _ h1
  rw [NormedSpace.exp_zero, Matrix.one_mul, Matrix.exp_transpose, ← transpose_mul] at h2
  rw [transpose_injective h2, C39_vec2Mat_mat2Vec]

theorem diag_real_herm {m : ℕ} (f : Fin m → ℝ) : (diagonal fun k => ((f k : ℝ) : ℂ))ᴴ = diagonal fun k => ((f k : ℝ) : ℂ) := by
  rw [diagonal_conjTranspose]
  congr 1; funext k; simp

/-- **C66 (thermal states).** A cavity (truncated at any dimension) or a qubit that emits with rate `g (n + 1)` and absorbs with rate `g n`, where
`n` is what `nBarThermal(w, T)` returns, does not change in the thermal state. -/
theorem C66_thermal (w T g : ℝ) (hx : 0 < w / T) : ∃ n, nBarThermal w T = .ok n ∧
    (∀ (m : ℕ) (c t : ℝ) (L : Op (m * m)),
      Liouvillian (some ((w : ℂ) • number m)) (some [.op (destroy m), .op (hc (destroy m))]) (some [g * (n + 1), g * n]) = some L →
      let rho : Op m := diagonal fun k : Fin m => ((c * Real.exp (-((k : ℕ) * w) / T) : ℝ) : ℂ)
      vec2Mat (NormedSpace.exp ((t : ℂ) • L) * mat2Vec rho) = rho) ∧
    (∀ (c t : ℝ) (L : Op (2 * 2)),
      Liouvillian (some (((w / 2 : ℝ) : ℂ) • sigmaz)) (some [.op sigmam, .op (hc sigmam)]) (some [g * (n + 1), g * n]) = some L →
      let rho : Op 2 := diagonal fun k : Fin 2 => ((if k = 0 then c * Real.exp (-w / T) else c : ℝ) : ℂ)
      vec2Mat (NormedSpace.exp ((t : ℂ) • L) * mat2Vec rho) = rho) := by
  obtain ⟨n, h1, h2, h3⟩ := C62_nbar_balance (w := w) (T := T) (h := 1) (k := 1) (by simpa using hx)
  simp only [one_mul, mul_one] at h3
  have hn : n = Real.exp (-(w / T)) * (n + 1) := by
    have : n + 1 ≠ 0 := by linarith
    rw [← h3]; field_simp
  refine ⟨n, h1, ?_, ?_⟩
  · intro m c t L hL rho
    apply exp_fixed
    refine C66_stationary ((w : ℂ) • number m) (destroy m) rho _ g n hn ?_ ?_ ?_ L hL
    · exact diag_real_herm _
    · rw [number_eq]
      ext i j
      simp only [rho, Verif.Toolbox.diag, mul_diagonal, diagonal_mul, Matrix.smul_apply, Matrix.of_apply, smul_eq_mul]
      by_cases h : (i : ℕ) = j
      · rw [h]; ring
      · simp [h]
    · rw [destroy_eq]
      ext i j
      simp only [rho, sup, mul_diagonal, diagonal_mul, Matrix.smul_apply, Matrix.of_apply, smul_eq_mul]
      by_cases h : (i : ℕ) + 1 = j
      · have e : Real.exp (-((j : ℕ) * w) / T) = Real.exp (-(w / T)) * Real.exp (-((i : ℕ) * w) / T) := by
          rw [← Real.exp_add, ← h]; congr 1; push_cast; ring
        rw [e]; push_cast; ring
      · simp [h]
  · intro c t L hL rho
    apply exp_fixed
    refine C66_stationary (((w / 2 : ℝ) : ℂ) • sigmaz) sigmam rho _ g n hn ?_ ?_ ?_ L hL
    · exact diag_real_herm _
    · ext i j
      simp only [rho, mul_diagonal, diagonal_mul, Matrix.smul_apply, smul_eq_mul]
      fin_cases i <;> fin_cases j <;> simp [sigmaz] <;> ring
    · ext i j
      have e : -w / T = -(w / T) := by ring
      simp only [rho, mul_diagonal, diagonal_mul, Matrix.smul_apply, smul_eq_mul, e]
      fin_cases i <;> fin_cases j <;> simp [sigmam]
      ring

end Verif.Env.Bath
