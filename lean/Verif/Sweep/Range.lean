import Verif.Sweep.Double
import Verif.Sweep.Model
import Mathlib.Analysis.SpecialFunctions.Pow.Real
import Mathlib.Tactic.IntervalCases

/-!
# C85: sweep lists made from a range

`_sweep.sweepList` (`QSweep.py:122-139`) makes the list from `sweepMin`, `sweepMax`, `sweepStep` and `logSweep` when it is first read.
Simplifications: integers are rounded like floating point numbers (exact below `2^53`); the powers of ten of `logspace` are exact.
-/
namespace Verif.Sweep

/-- A number assigned to one of the attributes. -/
inductive Num
  | int (z : ℤ)
  | float (q : ℚ)

/-- Its value. -/
def Num.val : Num → ℚ
  | .int z => z
  | .float q => q

/-- Element `i` of `numpy.arange`: the first two are computed directly, the others from their difference (NumPy, `DOUBLE_fill`).
`fl` rounds the result of each operation. -/
def arangeAt (fl : ℚ → ℚ) (start step : ℚ) : ℕ → ℚ
  | 0 => start
  | 1 => fl (start + step)
  | i + 2 => fl (start + fl (((i + 2 : ℕ) : ℚ) * fl (fl (start + step) - start)))

/-- The number of elements of `numpy.arange`: `ceil((stop - start)/step)` (NumPy, `_calc_length`). -/
def arangeLen (fl : ℚ → ℚ) (start stop step : ℚ) : ℕ := ⌈fl (fl (stop - start) / step)⌉.toNat

/-- `numpy.arange(start, stop, step)`; a zero step raises. -/
def arange (fl : ℚ → ℚ) (start stop step : ℚ) : Option (List ℚ) :=
  if step = 0 then none else some ((List.range (arangeLen fl start stop step)).map (arangeAt fl start step))

/-- `numpy.logspace(start, stop, num=n, base=10.0)`: powers of ten of `linspace`, whose last element is `stop`. -/
noncomputable def logspace (start stop : ℚ) (n : ℕ) : List ℝ :=
  (List.range n).map fun (i : ℕ) => (10 : ℝ) ^ (((if 1 < n ∧ i + 1 = n then stop else start + i * ((stop - start) / ((n : ℚ) - 1))) : ℚ) : ℝ)

/-- The attributes (`QSweep.py:70-82`); `log` is `none` for a `logSweep` that is neither `True` nor `False`. -/
structure RangeSweep where
  sMin : Option Num := none
  sMax : Option Num := none
  sStep : Option Num := none
  log : Option Bool := some false
  list : Option (List ℝ) := none

/-- The `try` block (`QSweep.py:128-135`); `none`: an error, or neither branch. -/
noncomputable def makeList (fl : ℚ → ℚ) (s : RangeSweep) : Option (List ℝ) :=
  match s.log, s.sMin, s.sMax, s.sStep with
  | some false, some a, some b, some h => (arange fl a.val (fl (b.val + h.val)) h.val).map (List.map fun (q : ℚ) => (q : ℝ))
  | some true, some a, some b, some (.int n) => if 0 ≤ n then some (logspace a.val b.val n.toNat) else none
  | _, _, _, _ => none

/-- `sweepList` (`QSweep.py:122-139`): any error is dropped, and then the list is `None`. -/
noncomputable def readList (fl : ℚ → ℚ) (s : RangeSweep) : Option (List ℝ) × RangeSweep :=
  match s.list with
  | none => (makeList fl s, { s with list := makeList fl s })
  | some l => (some l, s)

/-- What can be done with the attributes. -/
inductive RCmd
  | setMin (x : Option Num)
  | setMax (x : Option Num)
  | setStep (x : Option Num)
  | setLog (b : Option Bool)
  /-- `sweepList = ...` (`QSweep.py:141-143`) -/
  | setList (l : Option (List ℝ))
  /-- `sweepList` is read, also by every run -/
  | read

/-- Execute one command. -/
noncomputable def RCmd.exec (fl : ℚ → ℚ) (s : RangeSweep) : RCmd → RangeSweep
  | .setMin x => { s with sMin := x }
  | .setMax x => { s with sMax := x }
  | .setStep x => { s with sStep := x }
  | .setLog b => { s with log := b }
  | .setList l => { s with list := l }
  | .read => (readList fl s).2

/-- A new sweep with these attributes. -/
def rangeSweep (a b h : Num) : RangeSweep := { sMin := some a, sMax := some b, sStep := some h }

/-! ### Linear ranges -/

theorem arangeAt_exact (fl : ℚ → ℚ) (a h : ℚ) (n : ℕ) (e1 : ∀ i : ℕ, i ≤ n + 1 → fl (a + i * h) = a + i * h)
    (e2 : ∀ i : ℕ, i ≤ n + 1 → fl (i * h) = i * h) : ∀ i ≤ n, arangeAt fl a h i = a + i * h := by
  have e1' := e1 1 (by omega)
  have e2' := e2 1 (by omega)
  rw [Nat.cast_one, one_mul] at e1' e2'
  intro i hi
  match i with
  | 0 => simp [arangeAt]
  | 1 => simp only [arangeAt, Nat.cast_one, one_mul]; exact e1'
  | i + 2 =>
    simp only [arangeAt]
    rw [e1', add_sub_cancel_left, e2', e2 _ (by omega), e1 _ (by omega)]

/-- If the difference of `sweepMax` and `sweepMin` is a multiple of `sweepStep` and the numbers need no rounding, the list has all
multiples from `sweepMin` to `sweepMax`. -/
theorem C85_values_partial (fl : ℚ → ℚ) (a b h : Num) (n : ℕ) (h0 : h.val ≠ 0) (hb : b.val = a.val + n * h.val)
    (e1 : ∀ i : ℕ, i ≤ n + 1 → fl (a.val + i * h.val) = a.val + i * h.val) (e2 : ∀ i : ℕ, i ≤ n + 1 → fl (i * h.val) = i * h.val)
    (e3 : fl (n + 1) = n + 1) :
    (readList fl (rangeSweep a b h)).1 = some ((List.range (n + 1)).map fun i : ℕ => ((a.val + i * h.val : ℚ) : ℝ)) := by
  have hs : fl (b.val + h.val) = a.val + (n + 1 : ℕ) * h.val := by
    rw [← e1 (n + 1) le_rfl, hb]; congr 1; push_cast; ring
  have hl : arangeLen fl a.val (fl (b.val + h.val)) h.val = n + 1 := by
    unfold arangeLen
    rw [hs, add_sub_cancel_left, e2 (n + 1) le_rfl, mul_div_cancel_right₀ _ h0]
    have : fl ((n + 1 : ℕ) : ℚ) = ((n + 1 : ℕ) : ℤ) := by push_cast; exact e3
    rw [this, Int.ceil_intCast, Int.toNat_natCast]
  simp only [readList, rangeSweep, makeList, arange, if_neg h0, hl, Option.map_some, List.map_map]
  congr 1
  apply List.map_congr_left
  intro i hi
  simp only [Function.comp_apply]
  rw [arangeAt_exact fl _ _ n e1 e2 i (by have := List.mem_range.mp hi; omega)]

/-- Integers, in double precision. -/
theorem C85_integers_partial (a h : ℤ) (n : ℕ) (h0 : h ≠ 0) (hb : ∀ i : ℕ, i ≤ n + 1 → |a + i * h| < 2 ^ 53 ∧ |i * h| < 2 ^ 53)
    (hn : n + 1 < 2 ^ 53) : (readList double (rangeSweep (.int a) (.int (a + n * h)) (.int h))).1 =
      some ((List.range (n + 1)).map fun i : ℕ => (a : ℝ) + i * h) := by
  rw [C85_values_partial double (.int a) (.int (a + n * h)) (.int h) n (by simpa [Num.val] using h0) (by simp [Num.val])]
  · simp [Num.val]
  · intro i hi
    simp only [Num.val]
    have := double_int (a + i * h) (hb i hi).1
    push_cast at this; exact this
  · intro i hi
    simp only [Num.val]
    have := double_int (i * h) (hb i hi).2
    push_cast at this; exact this
  · have := double_int ((n + 1 : ℕ) : ℤ) (by rw [abs_of_nonneg (by omega)]; exact_mod_cast hn)
    push_cast at this; exact this

theorem arangeAt_id (a h : ℚ) (i : ℕ) : arangeAt id a h i = a + i * h :=
  arangeAt_exact id a h i (fun _ _ => rfl) (fun _ _ => rfl) i le_rfl

theorem len_id (a b h : ℚ) (h0 : h ≠ 0) : arangeLen id a (b + h) h = (⌈(b - a) / h⌉ + 1).toNat := by
  unfold arangeLen
  have : (b + h - a) / h = (b - a) / h + 1 := by field_simp; ring
  simp only [id_eq, this, Int.ceil_add_one]

/-- Without rounding: the number of values and the values. -/
theorem C85_exact (a b h : Num) (h0 : h.val ≠ 0) : (readList id (rangeSweep a b h)).1 =
    some ((List.range (⌈(b.val - a.val) / h.val⌉ + 1).toNat).map fun i : ℕ => ((a.val + i * h.val : ℚ) : ℝ)) := by
  simp only [readList, rangeSweep, makeList, arange, if_neg h0, id_eq, len_id _ _ _ h0, Option.map_some, List.map_map]
  congr 1
  apply List.map_congr_left
  intro i _
  simp only [Function.comp_apply, arangeAt_id]

/-- Even without rounding, the values stay below `sweepMax` only if the difference is a multiple of `sweepStep`. -/
theorem C85_beyond_iff (a b h : Num) (h0 : 0 < h.val) (hab : a.val ≤ b.val) :
    (∃ l, (readList id (rangeSweep a b h)).1 = some l ∧ ∀ v ∈ l, v ≤ ((b.val : ℚ) : ℝ)) ↔ ∃ n : ℕ, b.val = a.val + n * h.val := by
  have hd : 0 ≤ (b.val - a.val) / h.val := div_nonneg (by linarith) h0.le
  rw [C85_exact a b h h0.ne']
  constructor
  · rintro ⟨l, hl, hv⟩
    cases hl
    obtain ⟨m, hm⟩ := Int.eq_ofNat_of_zero_le (Int.ceil_nonneg hd)
    refine ⟨m, ?_⟩
    have := hv _ (List.mem_map.mpr ⟨m, List.mem_range.mpr (by rw [hm]; show m < ((m : ℤ) + 1).toNat; omega), rfl⟩)
    have h1 : a.val + m * h.val ≤ b.val := by exact_mod_cast this
    have h2 : (b.val - a.val) / h.val ≤ m := by
      have := Int.le_ceil ((b.val - a.val) / h.val)
      rw [hm] at this; exact_mod_cast this
    rw [div_le_iff₀ h0] at h2
    linarith
  · rintro ⟨n, hn⟩
    refine ⟨_, rfl, ?_⟩
    intro v hv
    obtain ⟨i, hi, rfl⟩ := List.mem_map.mp hv
    have hc : (b.val - a.val) / h.val = (n : ℤ) := by rw [hn, add_sub_cancel_left, mul_div_cancel_right₀ _ h0.ne']; simp
    rw [hc, Int.ceil_intCast] at hi
    have hi := List.mem_range.mp hi
    have : (i : ℚ) ≤ n := by exact_mod_cast (by omega : i ≤ n)
    have : a.val + i * h.val ≤ b.val := by rw [hn]; nlinarith
    exact_mod_cast this

/-! ### Rounding -/

theorem len_error (fl : ℚ → ℚ) (u : ℚ) (hu : 0 ≤ u) (hu1 : u ≤ 1) (hf : ∀ x, |fl x - x| ≤ |x| * u) (a b h : ℚ) (h0 : 0 < h) :
    |fl (fl (fl (b + h) - a) / h) - ((b - a) / h + 1)| * h ≤ 7 * u * (|a| + |b| + h) := by
  set B := |a| + |b| + h with hB
  set s := fl (b + h)
  set t := fl (s - a)
  set q := fl (t / h)
  have hB0 : 0 ≤ B := by positivity
  have h1 : |s - (b + h)| ≤ u * B := by
    refine (hf _).trans ?_
    rw [mul_comm]
    apply mul_le_mul_of_nonneg_left _ hu
    have := abs_add_le b h
    rw [abs_of_pos h0] at this
    have := abs_nonneg a
    linarith
  have h2 : |t - (s - a)| ≤ u * (B + u * B) := by
    refine (hf _).trans ?_
    rw [mul_comm]
    apply mul_le_mul_of_nonneg_left _ hu
    have e : s - a = (s - (b + h)) + (b + h - a) := by ring
    have := abs_add_le (s - (b + h)) (b + h - a)
    have k1 := abs_sub (b + h) a
    have k2 := abs_add_le b h
    rw [abs_of_pos h0] at k2
    rw [e]; linarith
  have h3 : |t - (b + h - a)| ≤ u * B + u * (B + u * B) := by
    have e : t - (b + h - a) = (t - (s - a)) + (s - (b + h)) := by ring
    have := abs_add_le (t - (s - a)) (s - (b + h))
    rw [e]; linarith
  have h4 : |q - t / h| * h ≤ u * (B + (u * B + u * (B + u * B))) := by
    have k := hf (t / h)
    rw [abs_div, abs_of_pos h0] at k
    have kt : |t| ≤ B + (u * B + u * (B + u * B)) := by
      have e : t = (t - (b + h - a)) + (b + h - a) := by ring
      have := abs_add_le (t - (b + h - a)) (b + h - a)
      rw [← e] at this
      have k1 := abs_sub (b + h) a
      have k2 := abs_add_le b h
      rw [abs_of_pos h0] at k2
      linarith
    calc |q - t / h| * h ≤ (|t| / h * u) * h := mul_le_mul_of_nonneg_right k h0.le
      _ = u * |t| := by field_simp
      _ ≤ _ := mul_le_mul_of_nonneg_left kt hu
  have e : q - ((b - a) / h + 1) = (q - t / h) + (t - (b + h - a)) / h := by field_simp; ring
  have h5 : |q - ((b - a) / h + 1)| * h ≤ |q - t / h| * h + |t - (b + h - a)| := by
    have := abs_add_le (q - t / h) ((t - (b + h - a)) / h)
    rw [← e, abs_div, abs_of_pos h0] at this
    calc _ ≤ (|q - t / h| + |t - (b + h - a)| / h) * h := mul_le_mul_of_nonneg_right this h0.le
      _ = _ := by field_simp
  have hu2 : u * u ≤ u := by nlinarith
  have c1 : u * (u * B) ≤ u * B := by
    calc u * (u * B) = (u * u) * B := by ring
      _ ≤ u * B := mul_le_mul_of_nonneg_right hu2 hB0
  have c2 : u * (u * (u * B)) ≤ u * B := (mul_le_mul_of_nonneg_left c1 hu).trans c1
  nlinarith

/-- In double precision: if `sweepMax` is (nearly) `n` steps from `sweepMin` and the step is not too small, there are `n + 1` values or one
more. -/
theorem C85_count (a b h : ℚ) (n : ℕ) (h0 : 0 < h) (hn : |b - a - n * h| < h / 2) (hs : 14 * (|a| + |b| + h) < 2 ^ 53 * h) :
    ∃ l, arange double a (double (b + h)) h = some l ∧ (l.length = n + 1 ∨ l.length = n + 2) := by
  refine ⟨_, if_neg h0.ne', ?_⟩
  rw [List.length_map, List.length_range]
  have k := len_error double (1 / 2 ^ 53) (by norm_num) (by norm_num) (fun x => by
    rw [mul_one_div]; exact double_error x) a b h h0
  unfold arangeLen
  set q := double (double (double (b + h) - a) / h)
  have k1 : |q - ((b - a) / h + 1)| * h < h / 2 := lt_of_le_of_lt k (by linarith)
  have k2 : |q - ((b - a) / h + 1)| < 1 / 2 := by nlinarith
  have k3 : |(b - a) / h - n| < 1 / 2 := by
    have e : (b - a) / h - n = (b - a - n * h) / h := by field_simp
    rw [e, abs_div, abs_of_pos h0, div_lt_iff₀ h0]; linarith
  rw [abs_lt] at k2 k3
  have l1 : (n : ℤ) < ⌈q⌉ := by rw [Int.lt_ceil]; push_cast; linarith [k2.1, k3.1]
  have l2 : ⌈q⌉ ≤ (n : ℤ) + 2 := by rw [Int.ceil_le]; push_cast; linarith [k2.2, k3.2]
  omega

/-- One more does happen: `sweepMin = 1`, `sweepMax = 1.3`, `sweepStep = 0.1` gives five values, the last of them `1.4`. -/
theorem C85_extra : ∃ l, arange double 1 (double (double (13 / 10) + double (1 / 10))) (double (1 / 10)) = some l ∧ l.length = 5 ∧
    ∃ v ∈ l, 139 / 100 < v := by
  refine ⟨_, if_neg (by decide +kernel), ?_, ?_⟩
  · rw [List.length_map, List.length_range]; decide +kernel
  · refine ⟨_, List.mem_map.mpr ⟨4, List.mem_range.mpr ?_, rfl⟩, ?_⟩ <;> decide +kernel

/-- It also happens that the number is right: `sweepMin = 0`, `sweepMax = 0.3`, `sweepStep = 0.1`. -/
example : ∃ l, arange double 0 (double (double (3 / 10) + double (1 / 10))) (double (1 / 10)) = some l ∧ l.length = 4 := by
  refine ⟨_, if_neg (by decide +kernel), ?_⟩
  rw [List.length_map, List.length_range]; decide +kernel

/-- The values are those of the range up to rounding. -/
theorem C85_accuracy (a h : ℚ) (i : ℕ) : |arangeAt double a h i - (a + i * h)| ≤ 20 * (i + 1) * (|a| + |h|) / 2 ^ 53 := by
  obtain ⟨u, hu⟩ : ∃ u : ℚ, u = 1 / 2 ^ 53 := ⟨_, rfl⟩
  have hu0 : 0 ≤ u := by rw [hu]; norm_num
  have hu1 : u ≤ 1 := by rw [hu]; norm_num
  have hf : ∀ x, |double x - x| ≤ u * |x| := by
    intro x; have := double_error x; rw [hu]; linarith
  have hgoal : (20 * (i + 1) * (|a| + |h|) / 2 ^ 53 : ℚ) = 20 * u * ((i + 1) * (|a| + |h|)) := by rw [hu]; ring
  rw [hgoal]
  set B := |a| + |h| with hB
  have hB0 : 0 ≤ B := by positivity
  have ha := abs_nonneg a
  have hh := abs_nonneg h
  have huB : 0 ≤ u * B := mul_nonneg hu0 hB0
  have huuB : u * (u * B) ≤ u * B := by nlinarith
  have d1 : |double (a + h) - (a + h)| ≤ u * B :=
    (hf _).trans (mul_le_mul_of_nonneg_left (abs_add_le a h) hu0)
  match i with
  | 0 => simp [arangeAt]; positivity
  | 1 =>
    simp only [arangeAt, Nat.cast_one, one_mul]
    nlinarith
  | i + 2 =>
    simp only [arangeAt]
    generalize hj : (((i + 2 : ℕ)) : ℚ) = j
    have hj0 : 0 ≤ j := by rw [← hj]; positivity
    set s := double (a + h)
    set d := double (s - a)
    set x := double (j * d)
    have huBj : 0 ≤ u * B * j := mul_nonneg huB hj0
    have d2 : |s - a| ≤ B + u * B := by
      have e : s - a = (s - (a + h)) + h := by ring
      have := abs_add_le (s - (a + h)) h
      rw [e]; linarith
    have d3 : |d - (s - a)| ≤ u * (B + u * B) := (hf _).trans (mul_le_mul_of_nonneg_left d2 hu0)
    have d4 : |d - h| ≤ 3 * (u * B) := by
      have e : d - h = (d - (s - a)) + (s - (a + h)) := by ring
      have := abs_add_le (d - (s - a)) (s - (a + h))
      rw [e]; linarith
    have d5 : |d| ≤ B + 3 * (u * B) := by
      have e : d = (d - h) + h := by ring
      have := abs_add_le (d - h) h
      rw [← e] at this; linarith
    have d6 : |x - j * d| ≤ 4 * (u * B * j) := by
      refine (hf _).trans ?_
      rw [abs_mul, abs_of_nonneg hj0]
      have : u * (j * |d|) ≤ u * (j * (B + 3 * (u * B))) :=
        mul_le_mul_of_nonneg_left (mul_le_mul_of_nonneg_left d5 hj0) hu0
      have : j * (u * (u * B)) ≤ j * (u * B) := mul_le_mul_of_nonneg_left huuB hj0
      linarith
    have d7 : |x - j * h| ≤ 7 * (u * B * j) := by
      have e : x - j * h = (x - j * d) + j * (d - h) := by ring
      have := abs_add_le (x - j * d) (j * (d - h))
      rw [abs_mul, abs_of_nonneg hj0] at this
      have := mul_le_mul_of_nonneg_left d4 hj0
      rw [e]; linarith
    have huBj' : u * B * j ≤ B * j := mul_le_mul_of_nonneg_right (by nlinarith) hj0
    have d8 : |a + x| ≤ B + 8 * (B * j) := by
      have e : a + x = a + ((x - j * h) + j * h) := by ring
      have k1 := abs_add_le a ((x - j * h) + j * h)
      have k2 := abs_add_le (x - j * h) (j * h)
      rw [abs_mul, abs_of_nonneg hj0] at k2
      have : j * |h| ≤ j * B := mul_le_mul_of_nonneg_left (by linarith) hj0
      rw [e]; linarith
    have d9 : |double (a + x) - (a + x)| ≤ u * (B + 8 * (B * j)) := (hf _).trans (mul_le_mul_of_nonneg_left d8 hu0)
    have e : double (a + x) - (a + j * h) = (double (a + x) - (a + x)) + (x - j * h) := by ring
    have := abs_add_le (double (a + x) - (a + x)) (x - j * h)
    rw [e]; linarith

/-! ### Logarithmic ranges -/

/-- `logSweep = True`: `sweepStep` values from `10**sweepMin` to `10**sweepMax` with equal ratios. -/
theorem C85_log (fl : ℚ → ℚ) (s : RangeSweep) (a b : Num) (n : ℕ) (h1 : s.sMin = some a) (h2 : s.sMax = some b)
    (h3 : s.sStep = some (.int (n + 2 : ℕ))) (h4 : s.log = some true) (h5 : s.list = none) :
    ∃ l : List ℝ, (readList fl s).1 = some l ∧ l.length = n + 2 ∧ l[0]? = some ((10 : ℝ) ^ ((a.val : ℚ) : ℝ)) ∧
      l[n + 1]? = some ((10 : ℝ) ^ ((b.val : ℚ) : ℝ)) ∧
      ∀ (i : ℕ) (x y : ℝ), l[i]? = some x → l[i + 1]? = some y → y = x * 10 ^ ((((b.val - a.val) / (n + 1) : ℚ)) : ℝ) := by
  have hl : (readList fl s).1 = some (logspace a.val b.val (n + 2)) := by
    simp only [readList, h5, makeList, h1, h2, h3, h4]
    rw [if_pos (by omega), Int.toNat_natCast]
  have hn : (n : ℚ) + 1 ≠ 0 := by positivity
  have ent : ∀ i, i < n + 2 → (logspace a.val b.val (n + 2))[i]? =
      some ((10 : ℝ) ^ (((a.val + i * ((b.val - a.val) / (n + 1)) : ℚ)) : ℝ)) := by
    intro i hi
    unfold logspace
    rw [List.getElem?_map, List.getElem?_range hi, Option.map_some]
    congr 3
    have e : ((n + 2 : ℕ) : ℚ) - 1 = n + 1 := by push_cast; ring
    rw [e]
    by_cases h : i + 1 = n + 2
    · rw [if_pos ⟨by omega, h⟩]
      have : i = n + 1 := by omega
      rw [this]
      push_cast
      field_simp
      ring
    · rw [if_neg (fun c => h c.2)]
  refine ⟨_, hl, by simp [logspace], ?_, ?_, ?_⟩
  · rw [ent 0 (by omega)]; simp
  · rw [ent (n + 1) (by omega)]
    congr 3
    push_cast
    field_simp
    ring
  · intro i x y hx hy
    have hi : i + 1 < n + 2 := by
      by_contra h
      rw [List.getElem?_eq_none (by simp [logspace]; omega)] at hy
      cases hy
    rw [ent i (by omega)] at hx
    rw [ent (i + 1) hi] at hy
    cases hx; cases hy
    rw [← Real.rpow_add (by norm_num)]
    congr 1
    push_cast
    ring

/-! ### When the list is made -/

/-- Before the first reading, the list is made from the attributes as they are. -/
theorem C85_current (fl : ℚ → ℚ) (s : RangeSweep) (h : s.list = none) : (readList fl s).1 = makeList fl s := by
  simp [readList, h]

/-- Once made, the list stays, whatever happens to the attributes, until `sweepList` is assigned: a second run of a simulation uses the old
list. -/
theorem C85_stale (fl : ℚ → ℚ) (s : RangeSweep) (l : List ℝ) (h : s.list = some l) (cs : List RCmd) (hc : ∀ x, RCmd.setList x ∉ cs) :
    (readList fl (cs.foldl (RCmd.exec fl) s)).1 = some l := by
  induction cs generalizing s with
  | nil => simp [readList, h]
  | cons c cs ih =>
    apply ih
    · cases c with
      | setList x => exact absurd List.mem_cons_self (hc x)
      | read => simp [RCmd.exec, readList, h]
      | setMin x => exact h
      | setMax x => exact h
      | setStep x => exact h
      | setLog x => exact h
    · exact fun x hx => hc x (List.mem_cons_of_mem _ hx)

/-- An assigned list is used whatever the other attributes are; assigning `None` makes it again from the attributes of that moment. -/
theorem C85_assigned (fl : ℚ → ℚ) (s : RangeSweep) (cs : List RCmd) (hc : ∀ x, RCmd.setList x ∉ cs) :
    (∀ l, (readList fl ((RCmd.setList (some l) :: cs).foldl (RCmd.exec fl) s)).1 = some l) ∧
    (readList fl (RCmd.exec fl s (.setList none))).1 = makeList fl s :=
  ⟨fun l => C85_stale fl _ l rfl cs hc, C85_current fl _ rfl⟩

/-- The range of the second run is not the requested one. -/
theorem C85_rerun : ∃ (s : RangeSweep) (cs : List RCmd), s = rangeSweep (.int 0) (.int 1) (.int 1) ∧ cs = [.read, .setMax (some (.int 2))] ∧
    (readList double (cs.foldl (RCmd.exec double) s)).1 = some [0, 1] ∧
    (readList double { (cs.foldl (RCmd.exec double) s) with list := none }).1 = some [0, 1, 2] := by
  have h1 := C85_integers_partial 0 1 1 (by norm_num) (by intro i hi; interval_cases i <;> norm_num) (by norm_num)
  have h2 := C85_integers_partial 0 1 2 (by norm_num) (by intro i hi; interval_cases i <;> norm_num) (by norm_num)
  have e1 : ((0 : ℤ) + (1 : ℕ) * 1) = 1 := by norm_num
  have e2 : ((0 : ℤ) + (2 : ℕ) * 1) = 2 := by norm_num
  rw [e1] at h1
  rw [e2] at h2
  refine ⟨_, _, rfl, rfl, ?_, ?_⟩
  · have : (RCmd.exec double (rangeSweep (.int 0) (.int 1) (.int 1)) .read).list = some [0, 1] := by
      show (readList double _).2.list = _
      have : ∀ s : RangeSweep, (readList double s).2.list = (readList double s).1 := by
        intro s; unfold readList; split <;> simp_all
      rw [this, h1]; simp [List.range_succ]
    exact C85_stale double _ _ this [.setMax (some (.int 2))] (by simp)
  · have : (readList double (rangeSweep (.int 0) (.int 2) (.int 1))).1 = some [0, 1, 2] := by
      rw [h2]; norm_num [List.range_succ]
    have k : ∀ s : RangeSweep, (readList double s).2.sMin = s.sMin ∧ (readList double s).2.sStep = s.sStep ∧
        (readList double s).2.log = s.log := by
      intro s; unfold readList; split <;> simp
    rw [← this]
    rw [C85_current double _ rfl, C85_current double _ rfl]
    unfold makeList
    simp only [List.foldl_cons, List.foldl_nil, RCmd.exec, (k _).1, (k _).2.1, (k _).2.2]
    rfl

/-- A list that cannot be made is `None` without an error, and is made as soon as it can be. -/
theorem C85_silent (fl : ℚ → ℚ) (s : RangeSweep) (h : s.list = none) (hm : makeList fl s = none) (c : RCmd) :
    (readList fl s).1 = none ∧ (readList fl (c.exec fl (readList fl s).2)).1 = (readList fl (c.exec fl s)).1 := by
  have e : (readList fl s).2 = s := by
    obtain ⟨_, _, _, _, l⟩ := s
    simp only at h
    subst h
    simp [readList, hm]
  rw [e]
  exact ⟨by rw [C85_current fl s h, hm], rfl⟩

/-- Which attributes give no list. -/
theorem C85_no_list_iff (fl : ℚ → ℚ) (s : RangeSweep) (h : s.list = none) :
    (readList fl s).1 = none ↔ s.sMin = none ∨ s.sMax = none ∨ s.sStep = none ∨ s.log = none ∨
      (s.log = some false ∧ ∃ x, s.sStep = some x ∧ x.val = 0) ∨
      (s.log = some true ∧ ((∃ q, s.sStep = some (.float q)) ∨ ∃ z : ℤ, z < 0 ∧ s.sStep = some (.int z))) := by
  rw [C85_current fl s h]
  obtain ⟨sMin, sMax, sStep, log, l⟩ := s
  unfold makeList
  rcases log with _ | _ | _ <;> rcases sMin with _ | a <;> rcases sMax with _ | b <;> rcases sStep with _ | (z | q) <;>
    simp [arange]

/-- A range from `2` down to `0`. -/
example : (readList double (rangeSweep (.int 2) (.int 0) (.int (-1)))).1 = some [2, 1, 0] := by
  have := C85_integers_partial 2 (-1) 2 (by norm_num) (by intro i hi; interval_cases i <;> norm_num) (by norm_num)
  have e : ((2 : ℤ) + (2 : ℕ) * -1) = 0 := by norm_num
  rw [e] at this
  rw [this]; norm_num [List.range_succ]

/-- From `0` to `1` in steps of `0.4` the last value is `1.2`. -/
example : (readList id (rangeSweep (.int 0) (.int 1) (.float (2 / 5)))).1 = some [0, 2 / 5, 4 / 5, 6 / 5] := by
  rw [C85_exact _ _ _ (by norm_num [Num.val])]
  have : (⌈((Num.int 1).val - (Num.int 0).val) / (Num.float (2 / 5)).val⌉ + 1).toNat = 4 := by decide +kernel
  rw [this]
  norm_num [List.range_succ, Num.val]

/-- Three values per logarithmic sweep. -/
example : ∃ l : List ℝ, (readList double { sMin := some (.int 0), sMax := some (.int 2), sStep := some (.int 3), log := some true }).1 = some l ∧
    l.length = 3 ∧ l[2]? = some ((10 : ℝ) ^ (2 : ℝ)) := by
  obtain ⟨l, h1, h2, -, h4, -⟩ := C85_log double { sMin := some (.int 0), sMax := some (.int 2), sStep := some (.int 3), log := some true }
    (.int 0) (.int 2) 1 rfl rfl rfl rfl rfl
  exact ⟨l, h1, h2, by simpa [Num.val] using h4⟩

end Verif.Sweep
