import Mathlib.Data.Rat.Floor
import Mathlib.Tactic.Linarith
import Mathlib.Tactic.FieldSimp
import Mathlib.Tactic.Ring
import Mathlib.Tactic.Positivity

/-!
# Rounding to double precision

Used for the ranges of sweeps (C85).  Simplification: the exponent is not bounded (no overflow, no subnormal numbers).
-/
namespace Verif.Sweep

/-- The nearest integer, the even one of two. -/
def roundEven (q : ℚ) : ℤ :=
  if q - ⌊q⌋ < 1 / 2 then ⌊q⌋ else if 1 / 2 < q - ⌊q⌋ then ⌊q⌋ + 1 else if ⌊q⌋ % 2 = 0 then ⌊q⌋ else ⌊q⌋ + 1

/-- The exponent of the leading binary digit. -/
def expo (q : ℚ) : ℤ :=
  let e : ℤ := (Nat.log2 q.num.natAbs : ℤ) - Nat.log2 q.den
  if (2 : ℚ) ^ e ≤ |q| then e else e - 1

/-- The nearest number with 53 binary digits, ties to even (IEEE 754 double precision, the arithmetic of Python's `float` and NumPy's
`float64`). -/
def double (q : ℚ) : ℚ := if q = 0 then 0 else roundEven (q / 2 ^ (expo q - 52)) * 2 ^ (expo q - 52)

theorem roundEven_error (q : ℚ) : |(roundEven q : ℚ) - q| ≤ 1 / 2 := by
  have h0 := Int.floor_le q
  have h1 := Int.lt_floor_add_one q
  unfold roundEven
  split
  · rw [abs_le]; constructor <;> linarith
  · split
    · push_cast; rw [abs_le]; constructor <;> linarith
    · split <;> push_cast <;> rw [abs_le] <;> constructor <;> linarith

theorem roundEven_int (z : ℤ) : roundEven (z : ℚ) = z := by
  unfold roundEven
  rw [Int.floor_intCast, sub_self, if_pos (by norm_num)]

theorem expo_le (q : ℚ) (hq : q ≠ 0) : (2 : ℚ) ^ expo q ≤ |q| := by
  have hn : q.num.natAbs ≠ 0 := by simpa using hq
  have a := Nat.log2_self_le hn
  have b := @Nat.lt_log2_self q.den
  have hd : (0 : ℚ) < q.den := by exact_mod_cast q.den_pos
  have e : |q| = (q.num.natAbs : ℚ) / q.den := by
    conv_lhs => rw [← Rat.num_div_den q]
    rw [abs_div, abs_of_pos hd]
    congr 1
    rw [← Int.cast_abs, Int.abs_eq_natAbs]; rfl
  unfold expo
  dsimp only
  split
  · assumption
  · have a' : (2 : ℚ) ^ (Nat.log2 q.num.natAbs) ≤ q.num.natAbs := by exact_mod_cast a
    have b' : (q.den : ℚ) ≤ 2 ^ (Nat.log2 q.den + 1) := by exact_mod_cast b.le
    rw [e, le_div_iff₀ hd]
    calc (2 : ℚ) ^ ((Nat.log2 q.num.natAbs : ℤ) - Nat.log2 q.den - 1) * q.den
        ≤ (2 : ℚ) ^ ((Nat.log2 q.num.natAbs : ℤ) - Nat.log2 q.den - 1) * 2 ^ (Nat.log2 q.den + 1) := by
          apply mul_le_mul_of_nonneg_left b' (zpow_pos (by norm_num) _).le
      _ = (2 : ℚ) ^ (Nat.log2 q.num.natAbs) := by
          rw [← zpow_natCast, ← zpow_natCast, ← zpow_add₀ (by norm_num)]
          congr 1
          push_cast; ring
      _ ≤ _ := a'

/-- The relative error of rounding. -/
theorem double_error (q : ℚ) : |double q - q| ≤ |q| / 2 ^ 53 := by
  unfold double
  split
  · rename_i h; rw [h]; simp
  · rename_i h
    have hp : (0 : ℚ) < 2 ^ (expo q - 52) := zpow_pos (by norm_num) _
    have h1 := roundEven_error (q / 2 ^ (expo q - 52))
    have h2 := expo_le q h
    have e : (2 : ℚ) ^ (expo q - 52) = 2 ^ expo q / 2 ^ 52 := by rw [zpow_sub₀ (by norm_num)]; norm_num
    have e1 : (roundEven (q / 2 ^ (expo q - 52)) : ℚ) * 2 ^ (expo q - 52) - q =
        ((roundEven (q / 2 ^ (expo q - 52)) : ℚ) - q / 2 ^ (expo q - 52)) * 2 ^ (expo q - 52) := by
      rw [sub_mul, div_mul_cancel₀ _ hp.ne']
    rw [e1, abs_mul, abs_of_pos hp]
    calc _ ≤ 1 / 2 * (2 : ℚ) ^ (expo q - 52) := mul_le_mul_of_nonneg_right h1 hp.le
      _ = 2 ^ expo q / 2 ^ 53 := by rw [e]; ring
      _ ≤ _ := div_le_div_of_nonneg_right h2 (by positivity)

/-- Integers of up to 53 binary digits are not rounded. -/
theorem double_int (z : ℤ) (hz : |z| < 2 ^ 53) : double z = z := by
  unfold double
  split
  · rename_i h; rw [h]
  · rename_i h
    have h2 := expo_le (z : ℚ) h
    have h3 : (2 : ℚ) ^ expo (z : ℚ) < 2 ^ (53 : ℤ) := by
      refine lt_of_le_of_lt h2 ?_
      rw [← Int.cast_abs]
      exact_mod_cast hz
    have h4 : expo (z : ℚ) < 53 := (zpow_lt_zpow_iff_right₀ (by norm_num)).mp h3
    obtain ⟨k, hk⟩ := Int.eq_ofNat_of_zero_le (show 0 ≤ 52 - expo (z : ℚ) by omega)
    have e : expo (z : ℚ) - 52 = -(k : ℤ) := by omega
    rw [e, zpow_neg, div_inv_eq_mul, zpow_natCast]
    have : (z : ℚ) * 2 ^ k = ((z * 2 ^ k : ℤ) : ℚ) := by push_cast; rfl
    rw [this, roundEven_int]
    push_cast
    rw [mul_assoc, mul_inv_cancel₀ (by positivity), mul_one]

/-- `0.1` -/
example : double (1 / 10) = 3602879701896397 / 2 ^ 55 := by decide +kernel

/-- `0.1 + 0.2` is not `0.3`. -/
example : double (double (1 / 10) + double (2 / 10)) ≠ double (3 / 10) := by decide +kernel

end Verif.Sweep
