import Mathlib.MeasureTheory.Integral.IntervalIntegral.FundThmCalculus
import Mathlib.MeasureTheory.Integral.IntervalIntegral.Periodic
import Mathlib.Analysis.SpecialFunctions.Integrals.Basic
import Mathlib.Analysis.Real.Pi.Bounds

/-!
# C65: pulses and drives

Source: `/repo/src/quanguru/classes/QDrive.py`.
-/
namespace Verif.Env.Drive
open MeasureTheory intervalIntegral

/-! ## Model -/

/-- The attributes of a `pulse` (`QDrive.py:80-121`) used by its methods; `func` stands for `func(time, *funcArgs, **funcKwargs)`.
Simplification: real numbers; `t0`, `t1` and `func` are set (otherwise every method raises TypeError). -/
structure Pulse where
  t0 : ℝ
  t1 : ℝ
  func : ℝ → ℝ
  scale : ℝ := 1

/-- `pulse.apply` (`QDrive.py:123-124`); `super().apply(time)` is zero (`QDrive.py:40-41`). -/
noncomputable def Pulse.apply (p : Pulse) (time : ℝ) : ℝ := if p.t1 > time ∧ time > p.t0 then p.scale * p.func time else 0

/-- `pulse.integrateShape` (`QDrive.py:126-130`). -/
noncomputable def Pulse.integrateShape (p : Pulse) : List ℝ → ℝ
  | a :: b :: l => p.apply ((b + a) / 2) * (b - a) + p.integrateShape (b :: l)
  | _ => 0

/-- `[p.t0 + i*((p.t1 - p.t0)/1000) for i in range(1001)]` (`QDrive.py:69`). -/
noncomputable def Pulse.grid (p : Pulse) : List ℝ := (List.range 1001).map fun (i : ℕ) => p.t0 + i * ((p.t1 - p.t0) / 1000)

/-- The pulse made by `addPulse(rotation, **pulseParams)` (`QDrive.py:64-72`); `none`: ZeroDivisionError. The print is left out. -/
noncomputable def withRotation (p : Pulse) (rotation : Option ℝ) : Option Pulse :=
  match rotation with
  | none => some p
  | some r => if 2 * Real.pi * p.integrateShape p.grid = 0 then none
    else some { p with scale := r / (2 * Real.pi * p.integrateShape p.grid) }

/-- `qDrive.apply` (`QDrive.py:74-78`): the coefficients of the pulses are added one by one. -/
noncomputable def driveApply (pulses : List Pulse) (time : ℝ) : ℝ := pulses.foldl (fun coef p => coef + p.apply time) 0

/-- A drive: its pulses, the list kept by `totalShape` and the flag `_paramUpdated`, which is `True` in a new object
(`baseClasses.py:143`). -/
structure Drive where
  pulses : List Pulse := []
  matrix : Option (List ℝ) := none
  updated : Bool := true

/-- What can be done with a drive: `addPulse`; assigning an attribute of a pulse (`t0`, `t1`, `func` through `setAttr`, which marks
the drive; `_scale`, `funcArgs`, `funcKwargs` directly, which does not); `delMatrices`; `totalShape`. -/
inductive Action where
  | addPulse (p : Pulse) (rotation : Option ℝ)
  | assign (i : ℕ) (p : Pulse) (marks : Bool)
  | delMatrices
  | totalShape (times : List ℝ)

/-- `genericDrive.totalShape` (`QDrive.py:32-38`). The flag is not reset. -/
noncomputable def totalShape (d : Drive) (times : List ℝ) : Drive × List ℝ :=
  let d := if d.matrix.isNone || d.updated then { d with matrix := some (times.map (driveApply d.pulses)) } else d
  (d, d.matrix.getD [])

/-- One action. -/
noncomputable def step (d : Drive) : Action → Drive
  | .addPulse p r => match withRotation p r with
    | none => { d with updated := true }
    | some p => { d with pulses := d.pulses ++ [p], updated := true }
  | .assign i p m => { d with pulses := d.pulses.set i p, updated := d.updated || m }
  | .delMatrices => { d with matrix := none }
  | .totalShape times => (totalShape d times).1

/-- Any history of a drive. -/
noncomputable def history (as : List Action) : Drive := as.foldl step {}

/-! ## Coefficients -/

/-- **C65 (support).** A pulse contributes nothing outside the open interval, and the scaled function inside. -/
theorem C65_support (p : Pulse) (t : ℝ) : (t ≤ p.t0 ∨ p.t1 ≤ t → p.apply t = 0) ∧
    (p.t0 < t → t < p.t1 → p.apply t = p.scale * p.func t) := by
  constructor
  · intro h
    rw [Pulse.apply, if_neg]
    rintro ⟨h1, h2⟩
    rcases h with h | h
    · exact absurd h2 (not_lt.mpr h)
    · exact absurd h1 (not_lt.mpr h)
  · intro h1 h2
    rw [Pulse.apply, if_pos ⟨h2, h1⟩]

theorem drive_sum (pulses : List Pulse) (t : ℝ) : driveApply pulses t = (pulses.map fun p => p.apply t).sum := by
  have : ∀ (l : List Pulse) (a : ℝ), l.foldl (fun coef p => coef + p.apply t) a = a + (l.map fun p => p.apply t).sum := by
    intro l
    induction l with
    | nil => intro a; simp
    | cons p l ih => intro a; rw [List.foldl_cons, ih, List.map_cons, List.sum_cons]; ring
  rw [driveApply, this, zero_add]

/-- **C65 (sum).** A drive is the sum of its pulses, in any order. -/
theorem C65_sum (pulses pulses' : List Pulse) (t : ℝ) (h : pulses.Perm pulses') :
    driveApply pulses t = (pulses.map fun p => p.apply t).sum ∧ driveApply pulses t = driveApply pulses' t := by
  refine ⟨drive_sum pulses t, ?_⟩
  rw [drive_sum, drive_sum]
  exact (h.map _).sum_eq

/-- **C65 (gap).** A pulse cut into two at an inner point is missing at that point. -/
theorem C65_gap (p : Pulse) (c : ℝ) (h0 : p.t0 < c) (h1 : c < p.t1) :
    (∀ t, t ≠ c → driveApply [{ p with t1 := c }, { p with t0 := c }] t = driveApply [p] t) ∧
    driveApply [{ p with t1 := c }, { p with t0 := c }] c = 0 ∧ driveApply [p] c = p.scale * p.func c := by
  refine ⟨?_, ?_, ?_⟩
  · intro t ht
    simp only [drive_sum, List.map_cons, List.map_nil, List.sum_cons, List.sum_nil, Pulse.apply]
    rcases lt_or_gt_of_ne ht with h | h
    · have e1 : ¬ c < t := not_lt.mpr h.le
      have e2 : t < p.t1 := h.trans h1
      simp [h, e1, e2]
    · have e1 : ¬ t < c := not_lt.mpr h.le
      have e2 : p.t0 < t := h0.trans h
      simp [h, e1, e2]
  · simp [drive_sum, Pulse.apply]
  · simp [drive_sum, Pulse.apply, h0, h1]

/-! ## Integrals -/

theorem grid_get (p : Pulse) (i : ℕ) (hi : i < 1001) : p.grid[i]? = some (p.t0 + i * ((p.t1 - p.t0) / 1000)) := by
  simp [Pulse.grid, hi]

theorem integrate_map (p : Pulse) (g : ℕ → ℝ) (n s : ℕ) : p.integrateShape ((List.range' s (n + 1)).map g) =
    ∑ i ∈ Finset.range n, p.apply ((g (s + i + 1) + g (s + i)) / 2) * (g (s + i + 1) - g (s + i)) := by
  induction n generalizing s with
  | zero => simp [Pulse.integrateShape]
  | succ n ih =>
    have h1 : (List.range' s (n + 1 + 1)).map g = g s :: g (s + 1) :: (List.range' (s + 2) n).map g := by
      simp [List.range'_succ]
    have h2 : (List.range' (s + 1) (n + 1)).map g = g (s + 1) :: (List.range' (s + 2) n).map g := by
      simp [List.range'_succ]
    rw [h1, Pulse.integrateShape, ← h2, ih, Finset.sum_range_succ']
    simp only [Nat.add_zero]
    rw [add_comm]
    congr 1
    refine Finset.sum_congr rfl fun i _ => ?_
    rw [show s + 1 + i + 1 = s + (i + 1) + 1 by ring, show s + 1 + i = s + (i + 1) by ring]

/-- The midpoint rule with a thousand intervals. -/
theorem integrate_grid (p : Pulse) : p.integrateShape p.grid =
    ∑ i ∈ Finset.range 1000, p.apply (p.t0 + (i + 1 / 2) * ((p.t1 - p.t0) / 1000)) * ((p.t1 - p.t0) / 1000) := by
  have h := integrate_map p (fun (i : ℕ) => p.t0 + i * ((p.t1 - p.t0) / 1000)) 1000 0
  rw [← List.range_eq_range'] at h
  rw [Pulse.grid, show (1001 : ℕ) = 1000 + 1 by rfl, h]
  refine Finset.sum_congr rfl fun i _ => ?_
  push_cast
  have e1 : (p.t0 + ((0 : ℝ) + i + 1) * ((p.t1 - p.t0) / 1000) + (p.t0 + ((0 : ℝ) + i) * ((p.t1 - p.t0) / 1000))) / 2 =
      p.t0 + (i + 1 / 2) * ((p.t1 - p.t0) / 1000) := by ring
  have e2 : p.t0 + ((0 : ℝ) + i + 1) * ((p.t1 - p.t0) / 1000) - (p.t0 + ((0 : ℝ) + i) * ((p.t1 - p.t0) / 1000)) =
      (p.t1 - p.t0) / 1000 := by ring
  rw [e1, e2]

theorem mid_inside (p : Pulse) (h : p.t0 < p.t1) (i : ℕ) (hi : i < 1000) :
    p.t0 < p.t0 + (i + 1 / 2) * ((p.t1 - p.t0) / 1000) ∧ p.t0 + (i + 1 / 2) * ((p.t1 - p.t0) / 1000) < p.t1 := by
  have hd : 0 < p.t1 - p.t0 := by linarith
  have hi' : (i : ℝ) + 1 ≤ 1000 := by exact_mod_cast hi
  constructor
  · have : 0 < ((i : ℝ) + 1 / 2) * ((p.t1 - p.t0) / 1000) := by positivity
    linarith
  · have : ((i : ℝ) + 1 / 2) * ((p.t1 - p.t0) / 1000) < 1000 * ((p.t1 - p.t0) / 1000) := by
      apply mul_lt_mul_of_pos_right _ (by positivity); linarith
    linarith

/-- The area under a pulse. -/
noncomputable def area (p : Pulse) : ℝ := ∫ t in p.t0..p.t1, p.apply t

theorem area_eq (p : Pulse) (h : p.t0 < p.t1) : area p = p.scale * ∫ t in p.t0..p.t1, p.func t := by
  rw [area, ← intervalIntegral.integral_const_mul]
  apply intervalIntegral.integral_congr_ae
  have : ∀ᵐ t : ℝ, t ≠ p.t1 := by
    have : (volume {p.t1} : ENNReal) = 0 := by simp
    exact MeasureTheory.compl_mem_ae_iff.mpr this
  filter_upwards [this] with t ht hm
  rw [Set.uIoc_of_le h.le] at hm
  exact (C65_support p t).2 hm.1 (lt_of_le_of_ne hm.2 ht)

theorem area_split (p : Pulse) (h : p.t0 < p.t1) (hc : ContinuousOn p.func (Set.Icc p.t0 p.t1)) :
    ∫ t in p.t0..p.t1, p.func t = ∑ i ∈ Finset.range 1000,
      ∫ t in (p.t0 + i * ((p.t1 - p.t0) / 1000))..(p.t0 + (i + 1) * ((p.t1 - p.t0) / 1000)), p.func t := by
  have hd : 0 < p.t1 - p.t0 := by linarith
  have := intervalIntegral.sum_integral_adjacent_intervals (f := p.func) (μ := volume)
    (a := fun i : ℕ => p.t0 + i * ((p.t1 - p.t0) / 1000)) (n := 1000) (by
      intro k hk
      apply ContinuousOn.intervalIntegrable
      apply hc.mono
      have hk' : ((k + 1 : ℕ) : ℝ) ≤ 1000 := by exact_mod_cast hk
      push_cast at hk' ⊢
      rw [Set.uIcc_of_le (by nlinarith)]
      apply Set.Icc_subset_Icc
      · have : 0 ≤ (k : ℝ) * ((p.t1 - p.t0) / 1000) := by positivity
        linarith
      · have : ((k : ℝ) + 1) * ((p.t1 - p.t0) / 1000) ≤ 1000 * ((p.t1 - p.t0) / 1000) :=
          mul_le_mul_of_nonneg_right hk' (by positivity)
        linarith)
  push_cast at this
  rw [this, zero_mul, add_zero, show p.t0 + 1000 * ((p.t1 - p.t0) / 1000) = p.t1 by ring]

/-- **C65 (accuracy).** If the function has Lipschitz constant `L` on the pulse, the area computed by `integrateShape` differs from the area
by at most `|scale| L (t1 - t0)^2 / 2000`. -/
theorem C65_accuracy (p : Pulse) (h : p.t0 < p.t1) (L : NNReal) (hL : LipschitzOnWith L p.func (Set.Icc p.t0 p.t1)) :
    |p.integrateShape p.grid - area p| ≤ |p.scale| * L * (p.t1 - p.t0) ^ 2 / 2000 := by
  have hd : 0 < p.t1 - p.t0 := by linarith
  set w := (p.t1 - p.t0) / 1000 with hw
  have hw0 : 0 < w := by positivity
  rw [area_eq p h, area_split p h hL.continuousOn, integrate_grid, Finset.mul_sum, ← Finset.sum_sub_distrib]
  refine (Finset.abs_sum_le_sum_abs _ _).trans ?_
  have hterm : ∀ i ∈ Finset.range 1000, |p.apply (p.t0 + (i + 1 / 2) * w) * w -
      p.scale * ∫ t in (p.t0 + i * w)..(p.t0 + (i + 1) * w), p.func t| ≤ |p.scale| * (L * w ^ 2 / 2) := by
    intro i hi
    have hi : i < 1000 := Finset.mem_range.mp hi
    obtain ⟨m1, m2⟩ := mid_inside p h i hi
    rw [(C65_support p _).2 m1 m2]
    have hi' : (i : ℝ) + 1 ≤ 1000 := by exact_mod_cast hi
    have ha : p.t0 ≤ p.t0 + i * w := by
      have : 0 ≤ (i : ℝ) * w := by positivity
      linarith
    have hb : p.t0 + (i + 1) * w ≤ p.t1 := by
      have : ((i : ℝ) + 1) * w ≤ 1000 * w := mul_le_mul_of_nonneg_right hi' hw0.le
      have e : 1000 * w = p.t1 - p.t0 := by rw [hw]; ring
      linarith
    have hab : p.t0 + i * w ≤ p.t0 + (i + 1) * w := by nlinarith
    have e1 : p.func (p.t0 + (i + 1 / 2) * w) * w = ∫ _ in (p.t0 + i * w)..(p.t0 + (i + 1) * w), p.func (p.t0 + (i + 1 / 2) * w) := by
      rw [intervalIntegral.integral_const, smul_eq_mul]; ring
    have hcont : IntervalIntegrable p.func volume (p.t0 + i * w) (p.t0 + (i + 1) * w) := by
      apply ContinuousOn.intervalIntegrable
      rw [Set.uIcc_of_le hab]
      exact hL.continuousOn.mono (Set.Icc_subset_Icc ha hb)
    rw [mul_assoc, ← mul_sub, abs_mul, e1, ← intervalIntegral.integral_sub (by simp) hcont]
    apply mul_le_mul_of_nonneg_left _ (abs_nonneg _)
    have := intervalIntegral.norm_integral_le_of_norm_le_const (a := p.t0 + i * w) (b := p.t0 + (i + 1) * w) (C := L * (w / 2))
      (f := fun t => p.func (p.t0 + (i + 1 / 2) * w) - p.func t) (by
        intro t ht
        rw [Set.uIoc_of_le hab] at ht
        have := hL.dist_le_mul (p.t0 + (i + 1 / 2) * w) ⟨m1.le, m2.le⟩ t ⟨ha.trans ht.1.le, ht.2.trans hb⟩
        rw [Real.dist_eq, Real.dist_eq] at this
        rw [Real.norm_eq_abs]
        refine this.trans (mul_le_mul_of_nonneg_left ?_ L.coe_nonneg)
        rw [abs_le]
        constructor <;> nlinarith [ht.1, ht.2])
    rw [Real.norm_eq_abs] at this
    refine this.trans (le_of_eq ?_)
    rw [show p.t0 + (↑i + 1) * w - (p.t0 + ↑i * w) = w by ring, abs_of_pos hw0]; ring
  refine (Finset.sum_le_sum hterm).trans (le_of_eq ?_)
  rw [Finset.sum_const, Finset.card_range, hw]
  simp only [nsmul_eq_mul]
  push_cast
  ring

/-- **C65 (accuracy).** The computed area is exact for functions of the form `a t + b`. -/
theorem C65_affine (p : Pulse) (h : p.t0 < p.t1) (a b : ℝ) (hf : p.func = fun t => a * t + b) : p.integrateShape p.grid = area p := by
  have hc : Continuous p.func := by rw [hf]; fun_prop
  rw [area_eq p h, area_split p h hc.continuousOn, integrate_grid, Finset.mul_sum]
  refine Finset.sum_congr rfl fun i hi => ?_
  obtain ⟨m1, m2⟩ := mid_inside p h i (Finset.mem_range.mp hi)
  rw [(C65_support p _).2 m1 m2, hf]
  have : ∫ t in (p.t0 + i * ((p.t1 - p.t0) / 1000))..(p.t0 + (i + 1) * ((p.t1 - p.t0) / 1000)), (a * t + b) =
      (a * (p.t0 + (i + 1 / 2) * ((p.t1 - p.t0) / 1000)) + b) * ((p.t1 - p.t0) / 1000) := by
    rw [intervalIntegral.integral_add (by apply Continuous.intervalIntegrable; fun_prop) (by simp),
      intervalIntegral.integral_const_mul, integral_id, intervalIntegral.integral_const, smul_eq_mul]
    ring
  rw [this]
  ring

theorem integrate_scale (p : Pulse) (r : ℝ) (l : List ℝ) :
    p.scale * ({ p with scale := r } : Pulse).integrateShape l = r * p.integrateShape l := by
  have hap : ∀ t, p.scale * ({ p with scale := r } : Pulse).apply t = r * p.apply t := by
    intro t
    simp only [Pulse.apply]
    split <;> ring
  induction l with
  | nil => simp [Pulse.integrateShape]
  | cons a l ih =>
    cases l with
    | nil => simp [Pulse.integrateShape]
    | cons b l =>
      rw [Pulse.integrateShape, Pulse.integrateShape, mul_add, mul_add, ih, ← mul_assoc, hap, mul_assoc]

/-! ## Rotation angles -/

/-- **C65 (rotation).** `addPulse(rotation=r)` raises exactly if the computed area is zero; otherwise only the scale changes, and
`2 pi` times the computed area is `r` - for the default scale one. -/
theorem C65_rotation (p : Pulse) (r : ℝ) (hs : p.scale = 1) :
    (withRotation p (some r) = none ↔ p.integrateShape p.grid = 0) ∧
    ∀ q, withRotation p (some r) = some q → q.t0 = p.t0 ∧ q.t1 = p.t1 ∧ q.func = p.func ∧
      2 * Real.pi * q.integrateShape q.grid = r := by
  have hpi : (2 * Real.pi : ℝ) ≠ 0 := by positivity
  constructor
  · simp [withRotation, Real.pi_ne_zero]
  · intro q hq
    rw [withRotation] at hq
    split at hq
    · simp at hq
    · rename_i h0
      obtain rfl := Option.some.inj hq
      refine ⟨rfl, rfl, rfl, ?_⟩
      have := integrate_scale p (r / (2 * Real.pi * p.integrateShape p.grid)) p.grid
      rw [hs, one_mul] at this
      have hg : ({ p with scale := r / (2 * Real.pi * p.integrateShape p.grid) } : Pulse).grid = p.grid := rfl
      rw [hg, this]
      field_simp
      exact mul_div_cancel_right₀ _ (right_ne_zero_of_mul h0)

/-- **C65 (rotation).** If a scale `s` is given as well, the angle becomes `r / s` instead of `r`. -/
theorem C65_rotation_scaled (p : Pulse) (r : ℝ) (hs : p.scale ≠ 0) (q : Pulse) (hq : withRotation p (some r) = some q) :
    2 * Real.pi * q.integrateShape q.grid = r / p.scale := by
  have hpi : (2 * Real.pi : ℝ) ≠ 0 := by positivity
  rw [withRotation] at hq
  split at hq
  · simp at hq
  · rename_i h0
    obtain rfl := Option.some.inj hq
    have := integrate_scale p (r / (2 * Real.pi * p.integrateShape p.grid)) p.grid
    have hg : ({ p with scale := r / (2 * Real.pi * p.integrateShape p.grid) } : Pulse).grid = p.grid := rfl
    rw [hg, eq_div_iff hs, mul_comm _ p.scale, mul_left_comm, this]
    field_simp
    exact mul_div_cancel_right₀ _ (right_ne_zero_of_mul h0)

/-- **C65 (rotation).** For pulses of the form `a t + b` the area itself is `r / 2 pi`. -/
theorem C65_rotation_exact (p : Pulse) (r a b : ℝ) (h : p.t0 < p.t1) (hf : p.func = fun t => a * t + b) (hs : p.scale = 1) (q : Pulse)
    (hq : withRotation p (some r) = some q) : 2 * Real.pi * area q = r := by
  obtain ⟨h0, h1, h2, h3⟩ := (C65_rotation p r hs).2 q hq
  rw [← C65_affine q (by rw [h0, h1]; exact h) a b (h2.trans hf), h3]

/-- A constant pulse of length two: the amplitude is `r / 4 pi`. -/
example (r : ℝ) : ∃ q, withRotation ⟨1, 3, fun _ => 1, 1⟩ (some r) = some q ∧ q.apply 2 = r / (4 * Real.pi) ∧ 2 * Real.pi * area q = r := by
  have hA : (⟨1, 3, fun _ => 1, 1⟩ : Pulse).integrateShape (⟨1, 3, fun _ => 1, 1⟩ : Pulse).grid = 2 := by
    rw [C65_affine _ (by norm_num) 0 1 (by simp), area_eq _ (by norm_num)]
    simp; norm_num
  have hq : withRotation ⟨1, 3, fun _ => 1, 1⟩ (some r) = some ⟨1, 3, fun _ => 1, r / (2 * Real.pi * 2)⟩ := by
    simp [withRotation, hA, Real.pi_ne_zero]
  refine ⟨_, hq, ?_, C65_rotation_exact ⟨1, 3, fun _ => 1, 1⟩ r 0 1 (by norm_num) (by simp) rfl _ hq⟩
  rw [(C65_support _ _).2 (by norm_num) (by norm_num)]
  have : (2 * Real.pi * 2 : ℝ) = 4 * Real.pi := by ring
  rw [this, mul_one]

/-! ## `totalShape` -/

theorem history_updated (as : List Action) : (history as).updated = true := by
  have : ∀ (as : List Action) (d : Drive), d.updated = true → (as.foldl step d).updated = true := by
    intro as
    induction as with
    | nil => intro d h; exact h
    | cons a as ih =>
      intro d h
      refine ih _ ?_
      cases a with
      | addPulse p r => rw [step]; split <;> rfl
      | assign i p m => simp [step, h]
      | delMatrices => exact h
      | totalShape l => simp [step, totalShape, h]
  exact this as {} rfl

/-- **C65 (shape).** After any history `totalShape(times)` returns the current coefficients at the given times, whatever was asked before. -/
theorem C65_totalShape (as : List Action) (times : List ℝ) :
    (totalShape (history as) times).2 = times.map fun t => ((history as).pulses.map fun p => p.apply t).sum := by
  rw [totalShape, history_updated]
  simp [drive_sum]

/-- Two different grids one after the other, and a new end time in between. -/
example : (totalShape (history [.addPulse ⟨0, 2, fun _ => 1, 1⟩ none, .totalShape [0, 1], .assign 0 ⟨0, 4, fun _ => 1, 1⟩ true]) [1, 3, 5]).2 =
    [1, 1, 0] := by
  rw [C65_totalShape]
  norm_num [history, step, withRotation, totalShape, Pulse.apply]

end Verif.Env.Drive
