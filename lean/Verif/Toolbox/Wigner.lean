import Mathlib.Analysis.SpecialFunctions.Exp
import Mathlib.Analysis.SpecialFunctions.Trigonometric.Basic
import Mathlib.Data.Complex.BigOperators
import Mathlib.Data.Nat.Choose.Sum
import Mathlib.Tactic.FieldSimp
import Mathlib.Tactic.LinearCombination

/-!
# Model of `Wigner` (`quasiProbabilities.py:49-108`)

All array operations of the function act elementwise on the grid of phase space points, so the model computes the value at one
point.  Exact real and complex numbers; a density matrix `rho` is given by its entries.  Only the branch for density matrices
is modelled (a ket is turned into its density matrix first, lines 86-87).
-/
namespace Verif.Toolbox.Wig

/-- One pass of the first loop (`quasiProbabilities.py:96-98`), for `n`: the list `Wlist` (as a function of the index) and
the accumulated value `W`. -/
noncomputable def row0Step (rho : ℕ → ℕ → ℂ) (A : ℂ) (st : (ℕ → ℂ) × ℝ) (n : ℕ) : (ℕ → ℂ) × ℝ :=
  let Wlist := Function.update st.1 n ((2 * A * st.1 (n - 1)) / (Real.sqrt n : ℂ))
  (Wlist, st.2 + 2 * (rho 0 n * Wlist n).re)

/-- One pass of the innermost loop (`quasiProbabilities.py:103-107`); the state is `(Wlist, temp, W)`. -/
noncomputable def innerStep (rho : ℕ → ℕ → ℂ) (A : ℂ) (m : ℕ) (st : (ℕ → ℂ) × ℂ × ℝ) (n : ℕ) : (ℕ → ℂ) × ℂ × ℝ :=
  let temp2 := (2 * A * st.1 (n - 1) - (Real.sqrt m : ℂ) * st.2.1) / (Real.sqrt n : ℂ)
  let temp := st.1 n
  let Wlist := Function.update st.1 n temp2
  (Wlist, temp, st.2.2 + 2 * (rho m n * Wlist n).re)

/-- One pass of the outer loop (`quasiProbabilities.py:99-107`), for `m`. -/
noncomputable def outerStep (M : ℕ) (rho : ℕ → ℕ → ℂ) (A : ℂ) (st : (ℕ → ℂ) × ℝ) (m : ℕ) : (ℕ → ℂ) × ℝ :=
  let temp := st.1 m
  let Wlist := Function.update st.1 m
    ((2 * (starRingEnd ℂ) A * temp - (Real.sqrt m : ℂ) * st.1 (m - 1)) / (Real.sqrt m : ℂ))
  let W := st.2 + (rho m m * Wlist m).re
  let res := (List.range' (m + 1) (M - (m + 1))).foldl (innerStep rho A m) (Wlist, temp, W)
  (res.1, res.2.2)

/-- The lists and the value after all loops, for the grid point with `A = 0.5 g (x + i y)` (`quasiProbabilities.py:92-107`). -/
noncomputable def wignerLoops (M : ℕ) (rho : ℕ → ℕ → ℂ) (A : ℂ) : (ℕ → ℂ) × ℝ :=
  let W0 : ℂ := (Real.exp (-2 * ‖A‖ ^ 2) / Real.pi : ℝ)
  let Wlist : ℕ → ℂ := Function.update (fun _ => 0) 0 W0
  let st := (List.range' 1 (M - 1)).foldl (row0Step rho A) (Wlist, (rho 0 0).re * (Wlist 0).re)
  (List.range' 1 (M - 1)).foldl (outerStep M rho A) st

/-- `Wigner(rho, vec, g)` (`quasiProbabilities.py:49-108`) at the grid point `(x, y)`. -/
noncomputable def wigner (M : ℕ) (rho : ℕ → ℕ → ℂ) (g x y : ℝ) : ℝ :=
  (wignerLoops M rho (0.5 * g * (x + Complex.I * y))).2 * g ^ 2

/-! ## Specification -/

/-- The Wigner function of `|m><n|` in closed form (a Laguerre/Hermite polynomial times a Gaussian), up to the scaling. -/
noncomputable def fockW (A : ℂ) (m n : ℕ) : ℂ :=
  (Real.exp (-2 * ‖A‖ ^ 2) / Real.pi : ℝ) / (Real.sqrt (m.factorial * n.factorial) : ℂ) *
    ∑ k ∈ Finset.range (min m n + 1), (-1) ^ k * (k.factorial * m.choose k * n.choose k : ℕ) *
      (2 * A) ^ (n - k) * (2 * (starRingEnd ℂ) A) ^ (m - k)

/-! ## The recurrences -/

/-- the polynomial part -/
noncomputable def herm (a b : ℂ) (m n : ℕ) : ℂ :=
  ∑ k ∈ Finset.range (min m n + 1), (-1) ^ k * (k.factorial * m.choose k * n.choose k : ℕ) * a ^ (n - k) * b ^ (m - k)

theorem herm_ext (a b : ℂ) (m n N : ℕ) (h : min m n < N) :
    herm a b m n = ∑ k ∈ Finset.range N, (-1) ^ k * (k.factorial * m.choose k * n.choose k : ℕ) * a ^ (n - k) * b ^ (m - k) := by
  rw [herm]
  refine Finset.sum_subset (Finset.range_subset_range.mpr h) fun k _ hk => ?_
  have hk' : min m n < k := by have := Finset.mem_range.not.mp hk; omega
  rcases min_lt_iff.mp hk' with h1 | h1 <;> simp [Nat.choose_eq_zero_of_lt h1]

theorem herm_symm (a b : ℂ) (m n : ℕ) : herm a b m n = herm b a n m := by
  rw [herm, herm, min_comm]
  refine Finset.sum_congr rfl fun k _ => ?_
  push_cast; ring

theorem herm_succ (a b : ℂ) (m n : ℕ) : herm a b (m + 1) (n + 1) = a * herm a b (m + 1) n - (m + 1 : ℕ) * herm a b m n := by
  rw [herm_ext a b (m + 1) (n + 1) (m + n + 1 + 1) (by omega), herm_ext a b (m + 1) n (m + n + 1 + 1) (by omega),
    herm_ext a b m n (m + n + 1) (by omega), Finset.sum_range_succ' _ (m + n + 1), Finset.sum_range_succ' _ (m + n + 1), mul_add,
    Finset.mul_sum, Finset.mul_sum]
  have key : ∀ k, (-1 : ℂ) ^ (k + 1) * ((k + 1).factorial * (m + 1).choose (k + 1) * (n + 1).choose (k + 1) : ℕ)
        * a ^ (n + 1 - (k + 1)) * b ^ (m + 1 - (k + 1))
      = a * ((-1) ^ (k + 1) * ((k + 1).factorial * (m + 1).choose (k + 1) * n.choose (k + 1) : ℕ)
        * a ^ (n - (k + 1)) * b ^ (m + 1 - (k + 1)))
        - (m + 1 : ℕ) * ((-1) ^ k * (k.factorial * m.choose k * n.choose k : ℕ) * a ^ (n - k) * b ^ (m - k)) := by
    intro k
    have h1 : ((k + 1).factorial * (m + 1).choose (k + 1) : ℕ) = (m + 1) * (k.factorial * m.choose k) := by
      rw [Nat.factorial_succ]
      have := Nat.add_one_mul_choose_eq m k
      calc (k + 1) * k.factorial * (m + 1).choose (k + 1) = k.factorial * ((m + 1).choose (k + 1) * (k + 1)) := by ring
        _ = k.factorial * ((m + 1) * m.choose k) := by rw [this]
        _ = _ := by ring
    rw [Nat.choose_succ_succ n k, h1]
    have h2 : (n + 1 - (k + 1)) = n - k := by omega
    have h3 : (m + 1 - (k + 1)) = m - k := by omega
    rw [h2, h3]
    by_cases hk : k < n
    · have h4 : n - k = (n - (k + 1)) + 1 := by omega
      rw [h4]
      push_cast
      ring
    · have h5 : n.choose (k + 1) = 0 := Nat.choose_eq_zero_of_lt (by omega)
      rw [h5]
      push_cast
      ring
  rw [Finset.sum_congr rfl fun k _ => key k, Finset.sum_sub_distrib]
  simp only [pow_zero, Nat.factorial_zero, Nat.choose_zero_right, Nat.sub_zero, pow_succ]
  push_cast
  ring

theorem herm_zero (a b : ℂ) (n : ℕ) : herm a b 0 n = a ^ n := by simp [herm]

theorem fockW_eq (A : ℂ) (m n : ℕ) : fockW A m n = (Real.exp (-2 * ‖A‖ ^ 2) / Real.pi : ℝ)
    / (Real.sqrt (m.factorial * n.factorial) : ℂ) * herm (2 * A) (2 * (starRingEnd ℂ) A) m n := rfl

theorem sqrt_fact_succ (m n : ℕ) : (Real.sqrt (m.factorial * (n + 1).factorial) : ℂ)
    = (Real.sqrt (m.factorial * n.factorial) : ℂ) * (Real.sqrt ((n + 1 : ℕ)) : ℂ) := by
  rw [← Complex.ofReal_mul, ← Real.sqrt_mul (by positivity)]
  congr 2
  rw [Nat.factorial_succ]; push_cast; ring

theorem sqrt_fact_ne (m n : ℕ) : (Real.sqrt (m.factorial * n.factorial) : ℂ) ≠ 0 := by
  rw [Complex.ofReal_ne_zero, Real.sqrt_ne_zero']
  positivity

theorem sqrt_succ_ne (n : ℕ) : (Real.sqrt ((n + 1 : ℕ)) : ℂ) ≠ 0 := by
  rw [Complex.ofReal_ne_zero, Real.sqrt_ne_zero']
  positivity

theorem sqrt_succ_sq (n : ℕ) : (Real.sqrt ((n + 1 : ℕ)) : ℂ) * (Real.sqrt ((n + 1 : ℕ)) : ℂ) = ((n + 1 : ℕ) : ℂ) := by
  rw [← Complex.ofReal_mul, Real.mul_self_sqrt (by positivity)]; simp

theorem fockW_zero_succ (A : ℂ) (n : ℕ) : fockW A 0 (n + 1) = 2 * A * fockW A 0 n / (Real.sqrt ((n + 1 : ℕ)) : ℂ) := by
  rw [fockW_eq, fockW_eq, herm_zero, herm_zero, sqrt_fact_succ]
  have h1 := sqrt_fact_ne 0 n
  have h2 := sqrt_succ_ne n
  field_simp
  ring

theorem fockW_succ (A : ℂ) (m n : ℕ) : fockW A (m + 1) (n + 1) =
    (2 * A * fockW A (m + 1) n - (Real.sqrt ((m + 1 : ℕ)) : ℂ) * fockW A m n) / (Real.sqrt ((n + 1 : ℕ)) : ℂ) := by
  rw [fockW_eq, fockW_eq, fockW_eq, herm_succ, sqrt_fact_succ (m + 1) n, mul_comm ((m + 1).factorial : ℝ),
    sqrt_fact_succ n m, mul_comm (n.factorial : ℝ)]
  have h1 := sqrt_fact_ne m n
  have h2 := sqrt_succ_ne n
  have h3 := sqrt_succ_ne m
  have h4 := sqrt_succ_sq m
  rw [← h4]
  field_simp

theorem fockW_symm (A : ℂ) (m n : ℕ) : fockW A n m = (starRingEnd ℂ) (fockW A m n) := by
  have hc : ∀ a b : ℂ, (starRingEnd ℂ) (herm a b m n) = herm ((starRingEnd ℂ) a) ((starRingEnd ℂ) b) m n := by
    intro a b
    simp only [herm, map_sum, map_mul, map_pow, map_neg, map_one, map_natCast]
  rw [fockW_eq, fockW_eq, map_mul, map_div₀, Complex.conj_ofReal, Complex.conj_ofReal, hc, herm_symm, mul_comm (n.factorial : ℝ)]
  have h2 : (starRingEnd ℂ) (2 : ℂ) = 2 := Complex.conj_ofNat 2
  rw [map_mul, map_mul, h2, Complex.conj_conj]

theorem fockW_diag_succ (A : ℂ) (m : ℕ) : fockW A (m + 1) (m + 1) =
    (2 * (starRingEnd ℂ) A * fockW A m (m + 1) - (Real.sqrt ((m + 1 : ℕ)) : ℂ) * fockW A m m)
      / (Real.sqrt ((m + 1 : ℕ)) : ℂ) := by
  have h := congrArg (starRingEnd ℂ) (fockW_succ A m m)
  rw [← fockW_symm, map_div₀, map_sub, map_mul, map_mul, map_mul, Complex.conj_ofReal, ← fockW_symm, ← fockW_symm] at h
  have h2 : (starRingEnd ℂ) (2 : ℂ) = 2 := Complex.conj_ofNat 2
  rw [h, h2]

/-! ## The loops -/

variable (rho : ℕ → ℕ → ℂ) (A : ℂ)

theorem row0_spec : ∀ (k : ℕ) (s : ℕ) (f : ℕ → ℂ) (W : ℝ), (∀ j, j ≤ s → f j = fockW A 0 j) →
    (∀ j, j ≤ s + k → ((List.range' (s + 1) k).foldl (row0Step rho A) (f, W)).1 j = fockW A 0 j) ∧
      ((List.range' (s + 1) k).foldl (row0Step rho A) (f, W)).2
        = W + ∑ n ∈ Finset.Ico (s + 1) (s + 1 + k), 2 * (rho 0 n * fockW A 0 n).re := by
  intro k
  induction k with
  | zero => intro s f W h; simpa using h
  | succ k ih =>
    intro s f W h
    rw [List.range'_succ, List.foldl_cons]
    have hv : (2 * A * f (s + 1 - 1)) / (Real.sqrt ((s + 1 : ℕ)) : ℂ) = fockW A 0 (s + 1) := by
      rw [Nat.add_sub_cancel, h s le_rfl, fockW_zero_succ]
    have h1 : ∀ j, j ≤ s + 1 → (row0Step rho A (f, W) (s + 1)).1 j = fockW A 0 j := by
      intro j hj
      simp only [row0Step]
      by_cases hjs : j = s + 1
      · subst hjs; rw [Function.update_self, hv]
      · rw [Function.update_of_ne hjs, h j (by omega)]
    have h2 : (row0Step rho A (f, W) (s + 1)).2 = W + 2 * (rho 0 (s + 1) * fockW A 0 (s + 1)).re := by
      simp only [row0Step, Function.update_self, hv]
    obtain ⟨e1, e2⟩ := ih (s + 1) (row0Step rho A (f, W) (s + 1)).1 (row0Step rho A (f, W) (s + 1)).2 h1
    refine ⟨fun j hj => e1 j (by omega), ?_⟩
    rw [e2, h2, Finset.sum_eq_sum_Ico_succ_bot (by omega : s + 1 < s + 1 + (k + 1)), add_assoc,
      show s + 1 + 1 + k = s + 1 + (k + 1) by omega]

theorem inner_spec (m : ℕ) : ∀ (k s : ℕ) (f : ℕ → ℂ) (temp : ℂ) (W : ℝ), m + 1 ≤ s →
    (∀ j, m + 1 ≤ j → j ≤ s → f j = fockW A (m + 1) j) → (∀ j, s < j → j ≤ s + k → f j = fockW A m j) → temp = fockW A m s →
    (∀ j, m + 1 ≤ j → j ≤ s + k → ((List.range' (s + 1) k).foldl (innerStep rho A (m + 1)) (f, temp, W)).1 j
        = fockW A (m + 1) j) ∧
      ((List.range' (s + 1) k).foldl (innerStep rho A (m + 1)) (f, temp, W)).2.2
        = W + ∑ n ∈ Finset.Ico (s + 1) (s + 1 + k), 2 * (rho (m + 1) n * fockW A (m + 1) n).re := by
  intro k
  induction k with
  | zero => intro s f temp W _ h _ _; simpa using h
  | succ k ih =>
    intro s f temp W hs h hnext ht
    rw [List.range'_succ, List.foldl_cons]
    have hv : (2 * A * f (s + 1 - 1) - (Real.sqrt ((m + 1 : ℕ)) : ℂ) * temp) / (Real.sqrt ((s + 1 : ℕ)) : ℂ)
        = fockW A (m + 1) (s + 1) := by
      rw [Nat.add_sub_cancel, h s hs le_rfl, ht, fockW_succ]
    set st := innerStep rho A (m + 1) (f, temp, W) (s + 1) with hst
    have h1 : ∀ j, m + 1 ≤ j → j ≤ s + 1 → st.1 j = fockW A (m + 1) j := by
      intro j hj1 hj
      simp only [hst, innerStep]
      by_cases hjs : j = s + 1
      · subst hjs; rw [Function.update_self, hv]
      · rw [Function.update_of_ne hjs, h j hj1 (by omega)]
    have h2 : st.2.2 = W + 2 * (rho (m + 1) (s + 1) * fockW A (m + 1) (s + 1)).re := by
      simp only [hst, innerStep, Function.update_self, hv]
    have h3 : ∀ j, s + 1 < j → j ≤ s + 1 + k → st.1 j = fockW A m j := by
      intro j hj1 hj
      simp only [hst, innerStep]
      rw [Function.update_of_ne (by omega), hnext j (by omega) (by omega)]
    have h4 : st.2.1 = fockW A m (s + 1) := by
      simp only [hst, innerStep]
      exact hnext (s + 1) (by omega) (by omega)
    obtain ⟨e1, e2⟩ := ih (s + 1) st.1 st.2.1 st.2.2 (by omega) h1 h3 h4
    refine ⟨fun j hj1 hj => e1 j hj1 (by omega), ?_⟩
    rw [show (st.1, st.2.1, st.2.2) = st from rfl] at e2
    rw [e2, h2, Finset.sum_eq_sum_Ico_succ_bot (by omega : s + 1 < s + 1 + (k + 1)), add_assoc,
      show s + 1 + 1 + k = s + 1 + (k + 1) by omega]

theorem outer_spec (M m : ℕ) (hm : m + 1 < M) (f : ℕ → ℂ) (W : ℝ) (h : ∀ j, m ≤ j → j < M → f j = fockW A m j) :
    (∀ j, m + 1 ≤ j → j < M → (outerStep M rho A (f, W) (m + 1)).1 j = fockW A (m + 1) j) ∧
      (outerStep M rho A (f, W) (m + 1)).2 = W + ((rho (m + 1) (m + 1) * fockW A (m + 1) (m + 1)).re
        + ∑ n ∈ Finset.Ico (m + 2) M, 2 * (rho (m + 1) n * fockW A (m + 1) n).re) := by
  have hv : (2 * (starRingEnd ℂ) A * f (m + 1) - (Real.sqrt ((m + 1 : ℕ)) : ℂ) * f (m + 1 - 1)) / (Real.sqrt ((m + 1 : ℕ)) : ℂ)
      = fockW A (m + 1) (m + 1) := by
    rw [Nat.add_sub_cancel, h (m + 1) (by omega) hm, h m le_rfl (by omega), fockW_diag_succ]
  obtain ⟨e1, e2⟩ := inner_spec rho A m (M - (m + 2)) (m + 1) (Function.update f (m + 1) (fockW A (m + 1) (m + 1))) (f (m + 1))
    (W + (rho (m + 1) (m + 1) * fockW A (m + 1) (m + 1)).re) le_rfl
    (fun j hj1 hj => by
      have : j = m + 1 := by omega
      subst this; rw [Function.update_self])
    (fun j hj1 hj => by rw [Function.update_of_ne (by omega), h j (by omega) (by omega)])
    (h (m + 1) (by omega) hm)
  have hM : m + 1 + 1 + (M - (m + 2)) = M := by omega
  rw [hM] at e2
  simp only [outerStep, hv, Function.update_self]
  refine ⟨fun j hj1 hj => e1 j hj1 (by omega), ?_⟩
  rw [e2]
  ring

theorem outer_fold (M : ℕ) : ∀ (k m : ℕ) (f : ℕ → ℂ) (W : ℝ), m + 1 + k = M → (∀ j, m ≤ j → j < M → f j = fockW A m j) →
    ((List.range' (m + 1) k).foldl (outerStep M rho A) (f, W)).2 = W + ∑ i ∈ Finset.Ico (m + 1) M,
      ((rho i i * fockW A i i).re + ∑ n ∈ Finset.Ico (i + 1) M, 2 * (rho i n * fockW A i n).re) := by
  intro k
  induction k with
  | zero => intro m f W hm _; simp [← hm]
  | succ k ih =>
    intro m f W hm h
    rw [List.range'_succ, List.foldl_cons]
    obtain ⟨e1, e2⟩ := outer_spec rho A M m (by omega) f W h
    have := ih (m + 1) (outerStep M rho A (f, W) (m + 1)).1 (outerStep M rho A (f, W) (m + 1)).2 (by omega) e1
    rw [show ((outerStep M rho A (f, W) (m + 1)).1, (outerStep M rho A (f, W) (m + 1)).2)
      = outerStep M rho A (f, W) (m + 1) from rfl] at this
    rw [this, e2, Finset.sum_eq_sum_Ico_succ_bot (by omega : m + 1 < M)]
    ring

theorem fockW_zero_zero : fockW A 0 0 = ((Real.exp (-2 * ‖A‖ ^ 2) / Real.pi : ℝ) : ℂ) := by
  simp [fockW]

theorem loops_eq (M : ℕ) (hM : 0 < M) : (wignerLoops M rho A).2 = ∑ i ∈ Finset.range M,
    ((rho i i * fockW A i i).re + ∑ n ∈ Finset.Ico (i + 1) M, 2 * (rho i n * fockW A i n).re) := by
  unfold wignerLoops
  have h0 : ∀ j, j ≤ 0 → (Function.update (fun _ => 0) 0 ((Real.exp (-2 * ‖A‖ ^ 2) / Real.pi : ℝ) : ℂ) : ℕ → ℂ) j = fockW A 0 j := by
    intro j hj
    obtain rfl : j = 0 := by omega
    rw [Function.update_self, fockW_zero_zero]
  obtain ⟨e1, e2⟩ := row0_spec rho A (M - 1) 0 _
    ((rho 0 0).re * ((Function.update (fun _ => 0) 0 ((Real.exp (-2 * ‖A‖ ^ 2) / Real.pi : ℝ) : ℂ) : ℕ → ℂ) 0).re) h0
  have hM' : 0 + 1 + (M - 1) = M := by omega
  rw [hM'] at e2
  simp only [Nat.zero_add] at e1 e2
  have := fun W => outer_fold rho A M (M - 1) 0 _ W (by omega) (fun j _ hj => e1 j (by omega))
  simp only [Nat.zero_add, Prod.mk.eta] at this
  refine (this _).trans ?_
  rw [e2, Finset.range_eq_Ico, Finset.sum_eq_sum_Ico_succ_bot hM]
  congr 2
  rw [Function.update_self, fockW_zero_zero, Complex.re_mul_ofReal, Complex.ofReal_re]

/-- summing a symmetric function over a square -/
theorem sum_square (G : ℕ → ℕ → ℝ) (hG : ∀ i j, G i j = G j i) : ∀ M : ℕ,
    ∑ i ∈ Finset.range M, (G i i + ∑ n ∈ Finset.Ico (i + 1) M, 2 * G i n)
      = ∑ i ∈ Finset.range M, ∑ j ∈ Finset.range M, G i j := by
  intro M
  induction M with
  | zero => simp
  | succ M ih =>
    rw [Finset.sum_range_succ]
    have h1 : ∀ i ∈ Finset.range M, (G i i + ∑ n ∈ Finset.Ico (i + 1) (M + 1), 2 * G i n)
        = (G i i + ∑ n ∈ Finset.Ico (i + 1) M, 2 * G i n) + 2 * G i M := by
      intro i hi
      rw [Finset.sum_Ico_succ_top (by have := Finset.mem_range.mp hi; omega)]
      ring
    rw [Finset.sum_congr rfl h1, Finset.sum_add_distrib, ih, Finset.sum_range_succ]
    simp only [Finset.sum_range_succ, Finset.sum_add_distrib]
    have h2 : ∑ x ∈ Finset.range M, G M x = ∑ x ∈ Finset.range M, G x M := Finset.sum_congr rfl fun x _ => hG M x
    rw [h2]
    simp [← Finset.mul_sum]
    ring

/-- **C56**: the three nested in-place loops compute the weighted sum of the closed-form Wigner functions of `|m><n|`, for every
dimension, every Hermitian matrix and every phase space point. -/
theorem C56_closed_form_partial (M : ℕ) (hM : 0 < M) (hH : ∀ i j, rho j i = (starRingEnd ℂ) (rho i j)) (g x y : ℝ) :
    (wigner M rho g x y : ℂ) = g ^ 2 * ∑ i ∈ Finset.range M, ∑ j ∈ Finset.range M,
      rho i j * fockW (g / 2 * (x + y * Complex.I)) i j := by
  have hA : (0.5 * g * (x + Complex.I * y) : ℂ) = g / 2 * (x + y * Complex.I) := by norm_num; ring
  rw [wigner, hA, loops_eq rho _ M hM]
  set A : ℂ := g / 2 * (x + y * Complex.I)
  have hsym : ∀ i j, (starRingEnd ℂ) (rho i j * fockW A i j) = rho j i * fockW A j i := by
    intro i j
    rw [map_mul, ← hH, ← fockW_symm]
  rw [sum_square (fun i j => (rho i j * fockW A i j).re) (fun i j => by rw [← hsym i j, Complex.conj_re]) M]
  have himag : ∑ i ∈ Finset.range M, ∑ j ∈ Finset.range M, rho i j * fockW A i j
      = ((∑ i ∈ Finset.range M, ∑ j ∈ Finset.range M, (rho i j * fockW A i j).re : ℝ) : ℂ) := by
    have hconj : (starRingEnd ℂ) (∑ i ∈ Finset.range M, ∑ j ∈ Finset.range M, rho i j * fockW A i j)
        = ∑ i ∈ Finset.range M, ∑ j ∈ Finset.range M, rho i j * fockW A i j := by
      rw [map_sum]
      simp only [map_sum, hsym]
      rw [Finset.sum_comm]
    obtain ⟨r, hr⟩ := Complex.conj_eq_iff_real.mp hconj
    rw [hr]
    have := congrArg Complex.re hr
    rw [Complex.ofReal_re, Complex.re_sum] at this
    rw [← this]
    simp [Complex.re_sum]
  rw [himag]
  push_cast
  ring

end Verif.Toolbox.Wig
