import Verif.Evol.Sampling

/-!
# C51: the time parameters after runs with a time-dependent sweep
-/
namespace Verif.Evol
open Verif.Sweep Verif.Time

/-- What a run with the sweeps `sweeps` in `timeDependency` leaves in the time parameters (`modularSweep.py:97-113,132`, `QSimBase.py:353-372`):
the stored step count is replaced by `indMultip`, then the property is read.  Also the values delivered.  Simplifications: one sweep point, one
simulation object; what raises has no state afterwards.  No sweeps: only the property is read, and no values are delivered. -/
def tdRun {α : Type} (fd : FloatDiv) (sweeps : List (SweepObj α)) (s : TS) : Option (List (List α) × TS) :=
  if sweeps = [] then
    match getStepCount s with
    | none => none
    | some (n, s') => some (List.replicate n.toNat [], s')
  else
    let sw := prepare {} sweeps
    match getStepCount { s with stepCount := some (sw.indMultip : ℤ) } with
    | none => none
    | some (n, s') =>
      match (List.range n.toNat).mapM fun ind => sweepPoint fd sw sweeps ind with
      | none => none
      | some l => some (l, s')

/-- Runs one after the other, each with the list of values it has then (empty: the sweep was removed); the numbers of steps. -/
def tdRuns {α : Type} (fd : FloatDiv) : List (List α) → TS → Option (List Nat)
  | [], _ => some []
  | vals :: rest, s =>
    match tdRun fd (if vals = [] then [] else [⟨vals, false⟩]) s with
    | none => none
    | some (l, s') => (tdRuns fd rest s').map (l.length :: ·)

theorem tdRun_some {α : Type} (fd : FloatDiv) (vals : List α) (T dt : ℚ) (hdt : dt ≠ 0) (c : Option ℤ) :
    ∃ l, tdRun fd (if vals = [] then [] else [⟨vals, false⟩]) ⟨some T, some dt, c⟩ = some (l, ⟨some T, some dt, some (⌊T / dt⌋ + 1)⟩) ∧
      l.length = (⌊T / dt⌋ + 1).toNat := by
  by_cases hne : vals = []
  · refine ⟨_, by simp [tdRun, hne, getStepCount, fillTotalTime, steps, hdt]; rfl, by simp⟩
  · have h := tdValues_eq fd vals hne T dt hdt c
    simp only [tdValues, getStepCount, fillTotalTime, steps, hdt, if_false] at h
    exact ⟨(List.range (⌊T / dt⌋ + 1).toNat).map fun k => [vals[k % vals.length]'(Nat.mod_lt _ (List.length_pos_iff.mpr hne))],
      by simp only [hne, if_false, tdRun, getStepCount, fillTotalTime, steps, hdt, List.cons_ne_nil, h], by simp⟩

/-- **C51** with a total time, runs with a time-dependent sweep leave total time and step size as they are, and every run has
`floor(T/dt)+1` steps, whatever the lists are and whatever number of steps was stored. -/
theorem C51_clock_kept {α : Type} (fd : FloatDiv) (lists : List (List α)) (T dt : ℚ) (hdt : dt ≠ 0) (c : Option ℤ) :
    tdRuns fd lists ⟨some T, some dt, c⟩ = some (List.replicate lists.length (⌊T / dt⌋ + 1).toNat) := by
  induction lists generalizing c with
  | nil => rfl
  | cons vals rest ih =>
    obtain ⟨l, h1, h2⟩ := tdRun_some fd vals T dt hdt c
    rw [tdRuns, h1]
    simp only [ih, h2, Option.map_some]
    rfl

/-- **C51** (negation) with a step size and a number of steps `n`, but no total time, the first list decides for all later runs: it has `N`
values, and every run, this one and those with longer or shorter lists, and those after the sweep has been removed, has `N+1` steps.  The
number of steps that was set is lost. -/
theorem C51_first_list_decides {α : Type} (fd : FloatDiv) (vals : List α) (hne : vals ≠ []) (lists : List (List α)) (dt : ℚ) (hdt : dt ≠ 0)
    (n : Option ℤ) :
    tdRuns fd (vals :: lists) ⟨none, some dt, n⟩ = some (List.replicate (lists.length + 1) (vals.length + 1)) := by
  have e : tdRuns fd (vals :: lists) ⟨none, some dt, n⟩ = tdRuns fd (vals :: lists) ⟨some (vals.length * dt), some dt, n⟩ := by
    simp [tdRuns, hne, tdRun, getStepCount, fillTotalTime, prepare, prepareLoop, reduceMul]
  rw [e, C51_clock_kept fd _ _ dt hdt]
  have hfl : ⌊(vals.length : ℚ) * dt / dt⌋ = (vals.length : ℤ) := by
    rw [mul_div_assoc, div_self hdt, mul_one]; exact Int.floor_natCast _
  rw [hfl]
  simp

/-- **C51** without a time-dependent sweep the number of steps set counts (one more step is made, C10), and a list used later has no effect on
it: the order of the runs matters. -/
theorem C51_run_before {α : Type} (fd : FloatDiv) (lists : List (List α)) (dt : ℚ) (hdt : dt ≠ 0) (n : ℕ) :
    tdRuns fd ([] :: lists) ⟨none, some dt, some (n : ℤ)⟩ = some (List.replicate (lists.length + 1) (n + 1)) := by
  have e : tdRuns fd ([] :: lists) ⟨none, some dt, some (n : ℤ)⟩ = tdRuns fd ([] :: lists) ⟨some (n * dt), some dt, some (n : ℤ)⟩ := by
    simp [tdRuns, tdRun, getStepCount, fillTotalTime]
  rw [e, C51_clock_kept fd _ _ dt hdt]
  have hfl : ⌊(n : ℚ) * dt / dt⌋ = (n : ℤ) := by
    rw [mul_div_assoc, div_self hdt, mul_one]; exact Int.floor_natCast _
  rw [hfl]
  simp

/-- The values delivered are those of `tdValues`. -/
theorem tdRun_values {α : Type} (fd : FloatDiv) (sweeps : List (SweepObj α)) (hs : sweeps ≠ []) (s : TS) :
    (tdRun fd sweeps s).map Prod.fst = tdValues fd sweeps s := by
  simp only [tdRun, hs, if_false, tdValues]
  cases h : getStepCount { s with stepCount := some ((prepare {} sweeps).indMultip : ℤ) } with
  | none => rfl
  | some x =>
    obtain ⟨n, s'⟩ := x
    simp only []
    cases (List.range n.toNat).mapM fun ind => sweepPoint fd (prepare {} sweeps) sweeps ind <;> rfl

/-- Five steps were set; with three values four are made, and also after the list has got seven values and after it has been removed. -/
example (fd : FloatDiv) : tdRuns fd [["a", "b", "c"], ["a", "b", "c", "d", "e", "f", "g"], []] ⟨none, some 1, some 5⟩ = some [4, 4, 4] :=
  C51_first_list_decides fd ["a", "b", "c"] (by simp) [["a", "b", "c", "d", "e", "f", "g"], []] 1 (by norm_num) (some 5)
/-- Run once without the sweep first, and every run makes six steps. -/
example (fd : FloatDiv) : tdRuns fd [[], ["a", "b", "c"], []] ⟨none, some 1, some 5⟩ = some [6, 6, 6] :=
  C51_run_before fd [["a", "b", "c"], []] 1 (by norm_num) 5

end Verif.Evol
