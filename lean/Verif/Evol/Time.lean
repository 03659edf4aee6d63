import Mathlib.Data.Rat.Floor
import Mathlib.Algebra.Order.Floor.Ring
import Mathlib.Tactic.FieldSimp
import Mathlib.Tactic.Linarith
import Mathlib.Data.List.Basic

/-!
# Model of the time parameters of a simulation and property C10

Source: `/repo/src/quanguru/classes/QSimBase.py:291-414` and `QSim.py:123-128`.

Simplifications: one simulation that is not bound to another one (binding is the subject of `Verif.Bound`); numbers are exact
rationals, so `a // b` is `⌊a/b⌋` (float rounding of `//` is not modelled); an assignment never passes `None`; an exception
is `none` and the state it leaves behind is not modelled.
-/
namespace Verif.Time

/-- The `_value`s of `totalTime`, `stepSize`, `stepCount` (`QSimBase.py:317-326`), all `None` at the start. -/
structure TS where
  totalTime : Option ℚ := none
  stepSize  : Option ℚ := none
  stepCount : Option ℤ := none
deriving DecidableEq

/-- `int((T // dt) + 1)`; division by zero raises. -/
def steps (T dt : ℚ) : Option ℤ := if dt = 0 then none else some (⌊T / dt⌋ + 1)

/-- `totalTime` setter (`QSimBase.py:345-351`). -/
def setTotalTime (T : ℚ) (s : TS) : Option TS :=
  let s := { s with totalTime := some T }
  match s.stepSize with
  | none => some s
  | some dt => match steps T dt with
    | none => none
    | some n => some { s with stepCount := some n }

/-- `stepSize` setter (`QSimBase.py:395-401`). -/
def setStepSize (dt : ℚ) (s : TS) : Option TS :=
  let s := { s with stepSize := some dt }
  match s.totalTime with
  | none => some s
  | some T => match steps T dt with
    | none => none
    | some n => some { s with stepCount := some n }

/-- `stepCount` setter (`QSimBase.py:374-380`). -/
def setStepCount (n : ℤ) (s : TS) : Option TS :=
  let s := { s with stepCount := some n }
  match s.totalTime with
  | none => some s
  | some T => if n = 0 then none else some { s with stepSize := some (T / n) }

/-- First part of the `stepCount` getter (`QSimBase.py:364-366`): compute a missing total time. -/
def fillTotalTime (s : TS) : Option TS :=
  match s.totalTime with
  | some _ => some s
  | none =>
    match s.stepSize, s.stepCount with
    | none, none => some s
    | some dt, some n => some { s with totalTime := some (n * dt) }
    | _, _ => none

/-- `stepCount` getter (`QSimBase.py:353-372`): the value and the state after reading; any problem ends in an exception. -/
def getStepCount (s : TS) : Option (ℤ × TS) :=
  match fillTotalTime s with
  | none => none
  | some s =>
    match s.totalTime, s.stepSize with
    | some T, some dt =>
      match steps T dt with
      | none => none
      | some n => some (n, { s with stepCount := some n })
    | _, _ => none

/-- `Simulation.timeList` (`QSim.py:123-128`): the list comprehension reads `stepSize` and `stepCount`. -/
def timeList (s : TS) : Option (List ℚ) :=
  match getStepCount s with
  | none => none
  | some (n, s) =>
    match s.stepSize with
    | none => none
    | some dt => some ((List.range (n + 1).toNat).map fun x => (x : ℚ) * dt)

/-- User operations. -/
inductive Cmd where
  | total (T : ℚ)
  | step (dt : ℚ)
  | count (n : ℤ)
  | read
deriving DecidableEq

def exec : Cmd → TS → Option TS
  | .total T, s => setTotalTime T s
  | .step dt, s => setStepSize dt s
  | .count n, s => setStepCount n s
  | .read, s => (getStepCount s).map (·.2)

def run : List Cmd → TS → Option TS
  | [], s => some s
  | c :: cs, s => match exec c s with
    | none => none
    | some s => run cs s

/-! ## C10 -/

theorem steps_spec {T dt : ℚ} {n : ℤ} (h : steps T dt = some n) : dt ≠ 0 ∧ n = ⌊T / dt⌋ + 1 := by
  unfold steps at h
  split at h
  · cases h
  · next hd => exact ⟨hd, (Option.some.inj h).symm⟩

theorem getStepCount_spec {s s' : TS} {n : ℤ} (h : getStepCount s = some (n, s')) :
    ∃ T dt, fillTotalTime s = some { s with totalTime := some T } ∧ s.stepSize = some dt ∧ dt ≠ 0 ∧ n = ⌊T / dt⌋ + 1 ∧
      s' = { totalTime := some T, stepSize := some dt, stepCount := some n } := by
  unfold getStepCount at h
  split at h
  · cases h
  · next s1 hf =>
    split at h
    · next T dt hT hdt =>
      split at h
      · cases h
      · next m hm =>
        obtain ⟨hd, hn⟩ := steps_spec hm
        simp only [Option.some.injEq, Prod.mk.injEq] at h
        obtain ⟨rfl, rfl⟩ := h
        have hs1 : s1 = { s with totalTime := some T } := by
          unfold fillTotalTime at hf
          split at hf
          · next T0 hT0 =>
            simp only [Option.some.injEq] at hf
            subst hf; cases s; simp_all
          · split at hf
            · simp only [Option.some.injEq] at hf; subst hf; cases s; simp_all
            · simp only [Option.some.injEq] at hf; subst hf; simp_all
            · cases hf
        refine ⟨T, dt, by rw [hf, hs1], by rw [← hdt, hs1], hd, hn, ?_⟩
        rw [← hT, ← hdt]
    · cases h

/-- **C10** (grid): whenever `stepCount` is read successfully, for any state whatsoever and positive step size, the value is
the number of step-size intervals needed to reach strictly beyond the total time, and no smaller number of intervals does;
afterwards `totalTime` and `stepSize` are set and the value read is stored. -/
theorem C10_read_covers_partial (s s' : TS) (n : ℤ) (h : getStepCount s = some (n, s')) :
    ∃ T dt, s'.totalTime = some T ∧ s'.stepSize = some dt ∧ s'.stepCount = some n ∧ n = ⌊T / dt⌋ + 1 ∧
      (0 < dt → T < n * dt ∧ ∀ m : ℤ, T < m * dt → n ≤ m) := by
  obtain ⟨T, dt, _, _, hd, hn, rfl⟩ := getStepCount_spec h
  refine ⟨T, dt, rfl, rfl, rfl, hn, fun hpos => ⟨?_, fun m hm => ?_⟩⟩
  · rw [hn]; push_cast
    have := Int.lt_floor_add_one (T / dt)
    rwa [div_lt_iff₀ hpos] at this
  · rw [hn]
    have : T / dt < m := by rwa [div_lt_iff₀ hpos]
    have := Int.floor_lt.mpr this
    omega

/-- **C10**: the points of `timeList` are `0, dt, ..., n*dt`; the last one is the first grid point beyond the total time. -/
theorem C10_timeList (s : TS) (l : List ℚ) (h : timeList s = some l) (hT : ∀ T, s.totalTime = some T → 0 ≤ T)
    (hdt : ∀ dt, s.stepSize = some dt → 0 < dt) (hn : ∀ n, s.stepCount = some n → 0 ≤ n) :
    ∃ (T dt : ℚ) (n : ℕ), getStepCount s = some ((n : ℤ), ⟨some T, some dt, some n⟩) ∧
      l = (List.range (n + 1)).map (fun x => (x : ℚ) * dt) ∧ l.head? = some 0 ∧
      ∃ last, l.getLast? = some last ∧ T < last ∧ last ≤ T + dt := by
  unfold timeList at h
  split at h
  · cases h
  · next n s1 hg =>
    obtain ⟨T, dt, hf, hs, hd, hn', rfl⟩ := getStepCount_spec hg
    simp only [Option.some.injEq] at h
    have hpos := hdt dt hs
    have hTpos : 0 ≤ T := by
      unfold fillTotalTime at hf
      cases hst : s.totalTime with
      | some T0 =>
        rw [hst] at hf
        simp only [Option.some.injEq] at hf
        have : s.totalTime = some T := by rw [hf]
        exact hT T this
      | none =>
        rw [hst, hs] at hf
        cases hsc : s.stepCount with
        | none => rw [hsc] at hf; simp at hf
        | some m =>
          rw [hsc] at hf
          simp only [Option.some.injEq] at hf
          have : (m : ℚ) * dt = T := by
            have := congrArg TS.totalTime hf
            simpa using this
          rw [← this]
          exact mul_nonneg (by exact_mod_cast hn m hsc) hpos.le
    have hfl : 0 ≤ ⌊T / dt⌋ := Int.floor_nonneg.mpr (div_nonneg hTpos hpos.le)
    obtain ⟨k, hk⟩ := Int.eq_ofNat_of_zero_le (show 0 ≤ n by omega)
    subst hk
    refine ⟨T, dt, k, hg, ?_, ?_, ?_⟩
    · rw [← h]; congr 2
    · rw [← h, show ((k : ℤ) + 1).toNat = k + 1 by omega, List.range_succ_eq_map]; simp
    · refine ⟨k * dt, ?_, ?_, ?_⟩
      · rw [← h, show ((k : ℤ) + 1).toNat = k + 1 by omega, List.range_succ]; simp
      · have h1 := Int.lt_floor_add_one (T / dt)
        rw [div_lt_iff₀ hpos] at h1
        have h2 : (k : ℚ) = (⌊T / dt⌋ : ℚ) + 1 := by exact_mod_cast hn'
        rw [h2]; exact h1
      · have h1 := Int.floor_le (T / dt)
        rw [le_div_iff₀ hpos] at h1
        have h2 : (k : ℚ) = (⌊T / dt⌋ : ℚ) + 1 := by exact_mod_cast hn'
        rw [h2]; linarith

/-- **C10**: reading twice gives the same value and changes nothing more. -/
theorem C10_read_stable (s s' : TS) (n : ℤ) (h : getStepCount s = some (n, s')) : getStepCount s' = some (n, s') := by
  obtain ⟨T, dt, _, _, hd, hn, rfl⟩ := getStepCount_spec h
  simp [getStepCount, fillTotalTime, steps, hd, hn]

/-- **C10**: the order of assigning total time and step size is irrelevant. -/
theorem C10_order_irrelevant (T dt : ℚ) (hdt : dt ≠ 0) (s : TS)
    (hs : ∀ d, s.stepSize = some d → d ≠ 0) :
    run [.total T, .step dt] s = run [.step dt, .total T] s := by
  cases h1 : s.totalTime <;> cases h2 : s.stepSize <;>
    simp_all [run, exec, setTotalTime, setStepSize, steps]

/-- **C10**: what a setter stores, and what it leaves alone, in every state. -/
theorem C10_setters (s s' : TS) :
    (∀ T, setTotalTime T s = some s' → s'.totalTime = some T ∧ s'.stepSize = s.stepSize ∧
      s'.stepCount = match s.stepSize with | none => s.stepCount | some dt => some (⌊T / dt⌋ + 1)) ∧
    (∀ dt, setStepSize dt s = some s' → s'.stepSize = some dt ∧ s'.totalTime = s.totalTime ∧
      s'.stepCount = match s.totalTime with | none => s.stepCount | some T => some (⌊T / dt⌋ + 1)) ∧
    (∀ n, setStepCount n s = some s' → s'.stepCount = some n ∧ s'.totalTime = s.totalTime ∧
      s'.stepSize = match s.totalTime with | none => s.stepSize | some T => some (T / n)) := by
  obtain ⟨tt, ss, sc⟩ := s
  refine ⟨fun T h => ?_, fun dt h => ?_, fun n h => ?_⟩
  · cases ss with
    | none => simp only [setTotalTime, Option.some.injEq] at h; subst h; exact ⟨rfl, rfl, rfl⟩
    | some dt =>
      simp only [setTotalTime, steps] at h
      by_cases hd : dt = 0
      · simp [hd] at h
      · simp only [hd, if_false, Option.some.injEq] at h; subst h; exact ⟨rfl, rfl, rfl⟩
  · cases tt with
    | none => simp only [setStepSize, Option.some.injEq] at h; subst h; exact ⟨rfl, rfl, rfl⟩
    | some T =>
      simp only [setStepSize, steps] at h
      by_cases hd : dt = 0
      · simp [hd] at h
      · simp only [hd, if_false, Option.some.injEq] at h; subst h; exact ⟨rfl, rfl, rfl⟩
  · cases tt with
    | none => simp only [setStepCount, Option.some.injEq] at h; subst h; exact ⟨rfl, rfl, rfl⟩
    | some T =>
      simp only [setStepCount] at h
      by_cases hd : n = 0
      · simp [hd] at h
      · simp only [hd, if_false, Option.some.injEq] at h; subst h; exact ⟨rfl, rfl, rfl⟩

/-- **C10**: step count and step size may be given in either order; the total time is then their product, and the count read is
one more than the one given (see below). -/
theorem C10_count_and_step (n : ℤ) (dt : ℚ) (hdt : dt ≠ 0) :
    run [.count n, .step dt, .read] {} = some ⟨some (n * dt), some dt, some (n + 1)⟩ ∧
      run [.step dt, .count n, .read] {} = some ⟨some (n * dt), some dt, some (n + 1)⟩ := by
  constructor <;>
    simp [run, exec, setStepCount, setStepSize, getStepCount, fillTotalTime, steps, hdt]

example : run [.count 4, .step (1/2), .read] {} = some ⟨some (4 * (1/2)), some (1/2), some 5⟩ := by
  simpa using (C10_count_and_step 4 (1/2) (by norm_num)).1

/-- **C10** is false for an explicitly assigned step count: in *every* state and for every `n`, if assigning `stepCount = n`
and reading it succeed, the value read is `n + 1`. -/
theorem C10_assigned_count_reads_plus_one (s s1 s2 : TS) (n m : ℤ) (hset : setStepCount n s = some s1)
    (hread : getStepCount s1 = some (m, s2)) : m = n + 1 := by
  obtain ⟨T, dt, hf, hs, hd, hm, rfl⟩ := getStepCount_spec hread
  unfold setStepCount at hset
  cases hT : s.totalTime with
  | none =>
    simp only [hT, Option.some.injEq] at hset
    subst hset
    have hs' : s.stepSize = some dt := hs
    unfold fillTotalTime at hf
    simp only [hs'] at hf
    have hT' : (n : ℚ) * dt = T := by
      have := congrArg (fun o => o.map TS.totalTime) hf
      simpa using this
    rw [hm, ← hT', mul_div_assoc, div_self hd, mul_one, Int.floor_intCast]
  | some T0 =>
    simp only [hT] at hset
    split at hset
    · cases hset
    · next hn0 =>
      simp only [Option.some.injEq] at hset
      subst hset
      simp only [Option.some.injEq] at hs
      unfold fillTotalTime at hf
      simp only [Option.some.injEq, TS.mk.injEq, and_true] at hf
      have hT0 : T0 = T := by simpa using hf
      subst hT0
      have hn : (n : ℚ) ≠ 0 := by exact_mod_cast hn0
      have hT0' : T0 ≠ 0 := by rintro rfl; simp at hs; exact hd hs.symm
      rw [hm, ← hs]
      have : T0 / (T0 / n) = n := by field_simp
      rw [this, Int.floor_intCast]

/-- **C10** speaks of the numbers stored, not of the decimals typed: the double nearest to `0.1` is above it and the one nearest to `0.3` is
below, so the exact floor of their quotient (which `//` of two floats gives) is 2 and `stepCount` reads 3, while the decimals would give
4; likewise `totalTime = 1` with `stepSize = 0.1` reads 10 and not 11. -/
theorem C10_decimals : let tenth : ℚ := 3602879701896397 / 2 ^ 55
    let threeTenths : ℚ := 5404319552844595 / 2 ^ 54
    |tenth - 1 / 10| ≤ 1 / 2 ^ 57 ∧ |threeTenths - 3 / 10| ≤ 1 / 2 ^ 55 ∧
    (run [.total threeTenths, .step tenth] {}).bind (fun s => (getStepCount s).map (·.1)) = some 3 ∧
    (run [.total (3 / 10), .step (1 / 10)] {}).bind (fun s => (getStepCount s).map (·.1)) = some 4 ∧
    (run [.total 1, .step tenth] {}).bind (fun s => (getStepCount s).map (·.1)) = some 10 ∧
    (run [.total 1, .step (1 / 10)] {}).bind (fun s => (getStepCount s).map (·.1)) = some 11 := by
  have f1 : ⌊(5404319552844595 / 2 ^ 54 : ℚ) / (3602879701896397 / 2 ^ 55)⌋ = 2 := by
    rw [Int.floor_eq_iff]; norm_num
  have f2 : ⌊(3 / 10 : ℚ) / (1 / 10)⌋ = 3 := by rw [Int.floor_eq_iff]; norm_num
  have f3 : ⌊(1 : ℚ) / (3602879701896397 / 2 ^ 55)⌋ = 9 := by rw [Int.floor_eq_iff]; norm_num
  have f4 : ⌊(1 : ℚ) / (1 / 10)⌋ = 10 := by rw [Int.floor_eq_iff]; norm_num
  refine ⟨by rw [abs_le]; norm_num, by rw [abs_le]; norm_num, ?_, ?_, ?_, ?_⟩ <;>
    simp only [run, exec, setTotalTime, setStepSize, getStepCount, fillTotalTime, steps, Option.bind_some, f1, f2, f3, f4] <;> norm_num [f1, f2, f3, f4]

/-- A history meeting the hypotheses of `C10_assigned_count_reads_plus_one`: `totalTime = 1; stepCount = 4` reads `5`. -/
theorem C10_assigned_count_witness : (run [.total 1, .count 4] {}).bind (fun s => (getStepCount s).map (·.1)) = some 5 := by
  norm_num [run, exec, setTotalTime, setStepCount, getStepCount, fillTotalTime, steps]

example : (run [.step (1/2), .total 3] {}).bind timeList = some ((List.range 8).map fun x => (x : ℚ) * (1/2)) := by
  norm_num [run, exec, setTotalTime, setStepSize, timeList, getStepCount, fillTotalTime, steps]
  rfl

example : run [.total 2, .step 1] {} = some ⟨some 2, some 1, some 3⟩ := by
  norm_num [run, exec, setTotalTime, setStepSize, steps]

end Verif.Time
