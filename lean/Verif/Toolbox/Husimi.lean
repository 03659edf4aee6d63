import Verif.Toolbox.WignerProps

/-!
# Model of `HusimiQ` and `_qfuncPure` (`quasiProbabilities.py:111-186`), and C57
-/
namespace Verif.Toolbox.Husimi

/-- A two-dimensional array with its shape. -/
structure Arr where
  rows : ℕ
  cols : ℕ
  entry : ℕ → ℕ → ℂ

/-- numpy's rule for one axis of two arrays that are combined elementwise; `none` is the ValueError for shapes that cannot be
broadcast. -/
def bdim (a b : ℕ) : Option ℕ := if a = b then some a else if a = 1 then some b else if b = 1 then some a else none

/-- Reading an array that was broadcast: an axis of length one is repeated. -/
def Arr.get (X : Arr) (i j : ℕ) : ℂ := X.entry (if X.rows = 1 then 0 else i) (if X.cols = 1 then 0 else j)

/-- An elementwise operation of two arrays with broadcasting. -/
def bop (f : ℂ → ℂ → ℂ) (X Y : Arr) : Option Arr :=
  match bdim X.rows Y.rows, bdim X.cols Y.cols with
  | some r, some c => some ⟨r, c, fun i j => f (X.get i j) (Y.get i j)⟩
  | _, _ => none

/-- `numpy.polyval(p, x)`: `y = zeros_like(x)`, then `y = y * x + pv` for `pv in p`.  The items of `p` are numbers (1 x 1
arrays) if `p` is one-dimensional and rows if it is two-dimensional. -/
def polyval (p : List Arr) (x : Arr) : Option Arr :=
  p.foldl (fun (y : Option Arr) pv => match y with
    | none => none
    | some y => match bop (· * ·) y x with
      | none => none
      | some t => bop (· + ·) t pv) (some ⟨x.rows, x.cols, fun _ _ => 0⟩)

/-- The argument `psi` of `_qfuncPure`: a one-dimensional array, or a ket of shape `(n, 1)`. -/
inductive Psi where
  | flat (n : ℕ) (a : ℕ → ℂ)
  | ket (n : ℕ) (a : ℕ → ℂ)

/-- `psi / np.sqrt(factorial(arange(n)))` -/
noncomputable def coef (a : ℕ → ℂ) (m : ℕ) : ℂ := a m / (Real.sqrt m.factorial : ℂ)

/-- `fliplr([psi.T / np.sqrt(factorial(arange(n)))])[0]` (`quasiProbabilities.py:181-184`), as the list of items over which
`polyval` iterates.  For a one-dimensional `psi` the list has shape `(1, n)` and `fliplr` reverses it.  For a ket `psi.T` has
shape `(1, n)`, the list has shape `(1, 1, n)`, `fliplr` reverses the second axis (of length one), and the result is a
two-dimensional array with one row. -/
noncomputable def polyArg : Psi → List Arr
  | .flat n a => ((List.range n).map fun m => (⟨1, 1, fun _ _ => coef a m⟩ : Arr)).reverse
  | .ket n a => [⟨1, n, fun _ m => coef a m⟩]

/-- `_qfuncPure(psi, alphaMat)` (`quasiProbabilities.py:157-186`); `none` is an exception. -/
noncomputable def qfuncPure (psi : Psi) (alpha : Arr) : Option Arr :=
  match polyval (polyArg psi) ⟨alpha.rows, alpha.cols, fun i j => (starRingEnd ℂ) (alpha.entry i j)⟩ with
  | none => none
  | some q =>
    bop (· * ·) ⟨q.rows, q.cols, fun i j => ((‖q.entry i j‖ ^ 2 : ℝ) : ℂ)⟩
      ⟨alpha.rows, alpha.cols, fun i j => ((Real.exp (-‖alpha.entry i j‖ ^ 2) / Real.pi : ℝ) : ℂ)⟩

/-- `amat = 0.5 * g * (X + Y * 1j)` for the grid of `vec` (`quasiProbabilities.py:135-136`). -/
noncomputable def grid (vec : List ℝ) (g : ℝ) : Arr :=
  ⟨vec.length, vec.length, fun i j => 0.5 * g * ((vec.getD j 0 : ℝ) + (vec.getD i 0 : ℝ) * Complex.I)⟩

/-- A state given to `HusimiQ`. -/
inductive State where
  | ket (n : ℕ) (a : ℕ → ℂ)
  | density (n : ℕ) (a : ℕ → ℕ → ℂ)

/-- `HusimiQ(state, vec, g)` (`quasiProbabilities.py:111-154`).  `none` is an exception; the branch for density matrices calls
`state.full()` on a numpy array (line 145), which has no such attribute.  Simplification: kets of dimension one (shape `(1, 1)`)
take the branch for density matrices and are not modelled. -/
noncomputable def husimiQ (state : State) (vec : List ℝ) (g : ℝ) : Option Arr :=
  match state with
  | .density _ _ => none
  | .ket n a =>
    match qfuncPure (.ket n a) (grid vec g) with
    | none => none
    | some q => some ⟨q.rows, q.cols, fun i j => 0.25 * q.entry i j * g ^ 2⟩

/-! ## Specification -/

/-- `|<alpha|psi>|^2 / pi` with the coherent state `|alpha>`. -/
noncomputable def coherentQ (n : ℕ) (a : ℕ → ℂ) (alpha : ℂ) : ℝ :=
  ‖∑ m ∈ Finset.range n, (Real.exp (-‖alpha‖ ^ 2 / 2) : ℂ) * (starRingEnd ℂ) alpha ^ m / (Real.sqrt m.factorial : ℂ) * a m‖ ^ 2
    / Real.pi

/-- What `HusimiQ` should return. -/
def HusimiOk (state : ℕ × (ℕ → ℂ)) (vec : List ℝ) (g : ℝ) (out : Option Arr) : Prop :=
  ∃ q, out = some q ∧ q.rows = vec.length ∧ q.cols = vec.length ∧ ∀ i < vec.length, ∀ j < vec.length,
    q.entry i j = ((g ^ 2 / 4 * coherentQ state.1 state.2 (g / 2 * (vec.getD j 0 + vec.getD i 0 * Complex.I)) : ℝ) : ℂ)

/-! ## One-dimensional arrays: right -/

theorem bdim_one (a : ℕ) : bdim a 1 = some a := by
  unfold bdim
  by_cases h : a = 1 <;> simp [h]

theorem bdim_self (a : ℕ) : bdim a a = some a := by simp [bdim]

theorem bop_one (f : ℂ → ℂ → ℂ) (X : Arr) (c : ℂ) : bop f X ⟨1, 1, fun _ _ => c⟩
    = some ⟨X.rows, X.cols, fun i j => f (X.get i j) c⟩ := by
  simp [bop, bdim_one, Arr.get]

theorem bop_same (f : ℂ → ℂ → ℂ) (r c : ℕ) (F G : ℕ → ℕ → ℂ) :
    bop f ⟨r, c, F⟩ ⟨r, c, G⟩ = some ⟨r, c, fun i j => f ((⟨r, c, F⟩ : Arr).get i j) ((⟨r, c, G⟩ : Arr).get i j)⟩ := by
  simp [bop, bdim_self]

theorem get_eq (X : Arr) (i j : ℕ) (hi : i < X.rows) (hj : j < X.cols) : X.get i j = X.entry i j := by
  have h1 : (if X.rows = 1 then 0 else i) = i := by split <;> omega
  have h2 : (if X.cols = 1 then 0 else j) = j := by split <;> omega
  rw [Arr.get, h1, h2]

theorem polyval_flat (x : Arr) : ∀ (cs : List ℂ), ∃ q, polyval (cs.map fun c => (⟨1, 1, fun _ _ => c⟩ : Arr)) x = some q ∧
    q.rows = x.rows ∧ q.cols = x.cols ∧ ∀ i < x.rows, ∀ j < x.cols,
      q.entry i j = cs.foldl (fun (y : ℂ) c => y * x.entry i j + c) 0 := by
  intro cs
  induction cs using List.reverseRecOn with
  | nil => exact ⟨_, rfl, rfl, rfl, fun _ _ _ _ => rfl⟩
  | append_singleton cs c ih =>
    obtain ⟨q, hq, hr, hc, he⟩ := ih
    rw [List.map_append, polyval, List.foldl_append, List.map_singleton, List.foldl_cons, List.foldl_nil]
    rw [polyval] at hq
    rw [hq]
    have h1 : bop (· * ·) q x = some ⟨x.rows, x.cols, fun i j => q.get i j * x.get i j⟩ := by
      simp [bop, hr, hc, bdim_self]
    simp only [h1, bop_one]
    refine ⟨_, rfl, rfl, rfl, fun i hi j hj => ?_⟩
    rw [List.foldl_append, List.foldl_cons, List.foldl_nil, ← he i hi j hj]
    simp only
    rw [get_eq ⟨x.rows, x.cols, fun i j => q.get i j * x.get i j⟩ i j hi hj]
    simp only
    rw [get_eq q i j (by omega) (by omega), get_eq x i j hi hj]

theorem horner (x : ℂ) (a : ℕ → ℂ) : ∀ n : ℕ,
    ((List.range n).map fun m => a m).reverse.foldl (fun (y : ℂ) c => y * x + c) 0 = ∑ m ∈ Finset.range n, a m * x ^ m := by
  intro n
  induction n generalizing a with
  | zero => rfl
  | succ n ih =>
    rw [List.range_succ_eq_map, List.map_cons, List.reverse_cons, List.foldl_append, List.map_map,
      Finset.sum_range_succ', List.foldl_cons, List.foldl_nil]
    have := ih (fun m => a (m + 1))
    rw [show ((fun m => a m) ∘ Nat.succ) = fun m => a (m + 1) from rfl, this, Finset.sum_mul]
    simp only [pow_succ, pow_zero, mul_one, mul_assoc]

theorem coherentQ_eq (n : ℕ) (a : ℕ → ℂ) (alpha : ℂ) : coherentQ n a alpha
    = ‖∑ m ∈ Finset.range n, coef a m * (starRingEnd ℂ) alpha ^ m‖ ^ 2 * (Real.exp (-‖alpha‖ ^ 2) / Real.pi) := by
  have h1 : ∑ m ∈ Finset.range n, (Real.exp (-‖alpha‖ ^ 2 / 2) : ℂ) * (starRingEnd ℂ) alpha ^ m / (Real.sqrt m.factorial : ℂ) * a m
      = ((Real.exp (-‖alpha‖ ^ 2 / 2) : ℝ) : ℂ) * ∑ m ∈ Finset.range n, coef a m * (starRingEnd ℂ) alpha ^ m := by
    rw [Finset.mul_sum]
    exact Finset.sum_congr rfl fun m _ => by rw [coef]; ring
  rw [coherentQ, h1, norm_mul, mul_pow, Complex.norm_real, Real.norm_eq_abs, sq_abs, ← Real.exp_nat_mul]
  have : ((2 : ℕ) : ℝ) * (-‖alpha‖ ^ 2 / 2) = -‖alpha‖ ^ 2 := by push_cast; ring
  rw [this]
  ring

/-- **C57**: for one-dimensional arrays `_qfuncPure` returns the overlap with the coherent states, for every dimension, state
and grid. -/
theorem C57_flat_partial (n : ℕ) (a : ℕ → ℂ) (alpha : Arr) : ∃ q, qfuncPure (.flat n a) alpha = some q ∧ q.rows = alpha.rows ∧
    q.cols = alpha.cols ∧ ∀ i < alpha.rows, ∀ j < alpha.cols, q.entry i j = (coherentQ n a (alpha.entry i j) : ℂ) := by
  obtain ⟨q, hq, hr, hc, he⟩ := polyval_flat ⟨alpha.rows, alpha.cols, fun i j => (starRingEnd ℂ) (alpha.entry i j)⟩
    ((List.range n).map fun m => coef a m).reverse
  have hp : polyArg (.flat n a) = ((List.range n).map fun m => coef a m).reverse.map fun c => (⟨1, 1, fun _ _ => c⟩ : Arr) := by
    simp [polyArg, List.map_reverse, Function.comp_def]
  unfold qfuncPure
  rw [hp, hq]
  have hb : q.rows = alpha.rows := hr
  have hb' : q.cols = alpha.cols := hc
  simp only [hb, hb', bop_same]
  refine ⟨_, rfl, rfl, rfl, fun i hi j hj => ?_⟩
  simp only
  rw [get_eq _ _ _ (by simpa using hi) (by simpa using hj), get_eq _ _ _ (by simpa using hi) (by simpa using hj)]
  simp only [he i hi j hj]
  rw [horner, coherentQ_eq]
  push_cast
  rfl

open MeasureTheory Verif.Toolbox.Wig in
/-- **C57**: the function that should be returned is a probability density on the phase plane for a normalised state: it is
non-negative and integrates to the squared norm. -/
theorem C57_mass (n : ℕ) (a : ℕ → ℂ) (g : ℝ) (hg : g ≠ 0) :
    (∀ z, 0 ≤ coherentQ n a z) ∧
      ∫ z : ℂ, g ^ 2 / 4 * coherentQ n a (g / 2 * z) = ∑ m ∈ Finset.range n, ‖a m‖ ^ 2 := by
  have hpi := Real.pi_pos
  refine ⟨fun z => by unfold coherentQ; positivity, ?_⟩
  have hc : 0 < g ^ 2 / 4 := by positivity
  have hpt : ∀ z : ℂ, ((g ^ 2 / 4 * coherentQ n a (g / 2 * z) : ℝ) : ℂ)
      = ∑ m ∈ Finset.range n, ∑ l ∈ Finset.range n,
        ((g ^ 2 / 4 / Real.pi : ℂ) * (coef a m * (starRingEnd ℂ) (coef a l)) * (g / 2 : ℂ) ^ (m + l)) * momF (g ^ 2 / 4) l m z := by
    intro z
    rw [coherentQ_eq]
    have h1 : ∀ w : ℂ, ((‖w‖ ^ 2 : ℝ) : ℂ) = w * (starRingEnd ℂ) w := by
      intro w; rw [Complex.mul_conj, Complex.normSq_eq_norm_sq]
    have h2 : -‖(g / 2 * z : ℂ)‖ ^ 2 = -(g ^ 2 / 4) * ‖z‖ ^ 2 := by
      rw [norm_mul, norm_div, Complex.norm_real, Complex.norm_ofNat, mul_pow, div_pow, Real.norm_eq_abs, sq_abs]; ring
    have h3 : (starRingEnd ℂ) (g / 2 * z : ℂ) = g / 2 * (starRingEnd ℂ) z := by
      rw [map_mul, map_div₀, Complex.conj_ofReal, Complex.conj_ofNat]
    rw [Complex.ofReal_mul, Complex.ofReal_mul, h1, h2, h3, map_sum, Finset.sum_mul_sum, Finset.sum_mul, Finset.mul_sum]
    refine Finset.sum_congr rfl fun m _ => ?_
    rw [Finset.sum_mul, Finset.mul_sum]
    refine Finset.sum_congr rfl fun l _ => ?_
    rw [map_mul, map_pow, map_mul, map_div₀, Complex.conj_ofReal, Complex.conj_ofNat, Complex.conj_conj, momF, mul_pow, mul_pow]
    push_cast
    ring
  have hint : ∀ m ∈ Finset.range n, ∀ l ∈ Finset.range n, Integrable (fun z : ℂ =>
      ((g ^ 2 / 4 / Real.pi : ℂ) * (coef a m * (starRingEnd ℂ) (coef a l)) * (g / 2 : ℂ) ^ (m + l)) * momF (g ^ 2 / 4) l m z) :=
    fun m _ l _ => (momF_integrable _ hc l m).const_mul _
  have hC : ((∫ z : ℂ, g ^ 2 / 4 * coherentQ n a (g / 2 * z) : ℝ) : ℂ) = ((∑ m ∈ Finset.range n, ‖a m‖ ^ 2 : ℝ) : ℂ) := by
    rw [← integral_complex_ofReal]
    simp only [hpt]
    rw [integral_finsetSum _ fun m hm => integrable_finsetSum _ fun l hl => hint m hm l hl, Complex.ofReal_sum]
    refine Finset.sum_congr rfl fun m hm => ?_
    rw [integral_finsetSum _ fun l hl => hint m hm l hl]
    simp only [integral_const_mul]
    rw [Finset.sum_eq_single_of_mem m hm (fun l _ hl => by rw [momF_ne _ _ _ hl, mul_zero]), momF_eq _ hc]
    have hf : (m.factorial : ℂ) ≠ 0 := by exact_mod_cast m.factorial_ne_zero
    have hs : (Real.sqrt m.factorial : ℂ) * (Real.sqrt m.factorial : ℂ) = m.factorial := by
      rw [← Complex.ofReal_mul, Real.mul_self_sqrt (by positivity)]; simp
    have hs0 : (Real.sqrt m.factorial : ℂ) ≠ 0 := fun h => hf (by rw [← hs, h, zero_mul])
    have hpi' : (Real.pi : ℂ) ≠ 0 := by exact_mod_cast Real.pi_ne_zero
    have hg' : (g : ℂ) ≠ 0 := by exact_mod_cast hg
    rw [coef, map_div₀, Complex.conj_ofReal, ← Complex.normSq_eq_norm_sq, Complex.normSq_eq_conj_mul_self]
    have hp : (((g ^ 2 / 4 : ℝ) : ℂ)) ^ (m + 1) = (g / 2 : ℂ) ^ (m + m) * (g ^ 2 / 4) := by
      push_cast
      rw [pow_succ, ← two_mul, pow_mul]
      congr 2
      ring
    have hP : (g / 2 : ℂ) ^ (m + m) ≠ 0 := pow_ne_zero _ (div_ne_zero hg' two_ne_zero)
    rw [hp]
    generalize (g / 2 : ℂ) ^ (m + m) = P at hP ⊢
    field_simp
    rw [← hs]
    ring
  exact_mod_cast hC

/-! ## Kets and density matrices: wrong -/

/-- **C57** is false of the code: for a ket of dimension two or more on any grid whose number of points per axis is neither one
nor the dimension, an exception is raised. -/
theorem C57_ket_raises (n : ℕ) (a : ℕ → ℂ) (vec : List ℝ) (g : ℝ) (hn : n ≠ 1) (h1 : vec.length ≠ 1) (h : vec.length ≠ n) :
    husimiQ (.ket n a) vec g = none := by
  simp [husimiQ, qfuncPure, polyArg, polyval, bop, grid, bdim, h, h1, hn]

/-- **C57** is false of the code: density matrices always raise an exception. -/
theorem C57_density_raises (n : ℕ) (a : ℕ → ℕ → ℂ) (vec : List ℝ) (g : ℝ) : husimiQ (.density n a) vec g = none := rfl

/-- **C57**, what the code computes when the numbers agree: in column `j` only the amplitude number `j` counts, with the Gaussian of the point
`0.5 g (x_j + i y_i)` and the normalisation of the ket `j`. -/
theorem C57_ket_square (n : ℕ) (a : ℕ → ℂ) (vec : List ℝ) (g : ℝ) (h : vec.length = n) :
    ∃ q, husimiQ (.ket n a) vec g = some q ∧ ∀ i < n, ∀ j < n, q.entry i j
      = 0.25 * (((‖a j / (Real.sqrt j.factorial : ℂ)‖ ^ 2 : ℝ) : ℂ) *
        ((Real.exp (-‖(0.5 * g * ((vec.getD j 0 : ℝ) + (vec.getD i 0 : ℝ) * Complex.I) : ℂ)‖ ^ 2) / Real.pi : ℝ) : ℂ)) * g ^ 2 := by
  show ∃ q, husimiQ (.ket n a) vec g = some q ∧ ∀ i < n, ∀ j < n, q.entry i j
      = 0.25 * (((‖coef a j‖ ^ 2 : ℝ) : ℂ) * ((Real.exp (-‖(grid vec g).entry i j‖ ^ 2) / Real.pi : ℝ) : ℂ)) * g ^ 2
  subst h
  have h1 : bdim vec.length vec.length = some vec.length := bdim_self _
  simp only [husimiQ, qfuncPure, polyArg, polyval, List.foldl_cons, List.foldl_nil, bop, grid, h1]
  simp only [bdim_one, bdim_self]
  refine ⟨_, rfl, fun i hi j hj => ?_⟩
  simp only
  rw [get_eq _ _ _ (by simpa using hi) (by simpa using hj), get_eq _ _ _ (by simpa using hi) (by simpa using hj)]
  simp only
  have : (⟨1, vec.length, fun _ m => coef a m⟩ : Arr).get i j = coef a j := by
    simp only [Arr.get]
    split
    · congr 1; omega
    · rfl
  rw [this]
  simp [Arr.get]

/-- **C57** is false of the code: when the numbers agree, the values are wrong, for example zero for the vacuum everywhere except
in the first column of the grid, for every grid of two or more points. -/
theorem C57_vacuum_wrong (vec : List ℝ) (g : ℝ) (hg : g ≠ 0) (hn : 2 ≤ vec.length) :
    ¬ HusimiOk (vec.length, fun m => if m = 0 then 1 else 0) vec g
      (husimiQ (.ket vec.length fun m => if m = 0 then 1 else 0) vec g) := by
  rintro ⟨q, hq, _, _, he⟩
  obtain ⟨q', hq', he'⟩ := C57_ket_square vec.length (fun m => if m = 0 then 1 else 0) vec g rfl
  rw [hq] at hq'
  cases hq'
  have h1 := he 0 (by omega) 1 (by omega)
  rw [he' 0 (by omega) 1 (by omega)] at h1
  simp only [coef] at h1
  rw [coherentQ_eq, Finset.sum_eq_single_of_mem 0 (by simp; omega) (fun m _ hm => by simp [coef, hm])] at h1
  have hpos : (0 : ℝ) < g ^ 2 / 4 * (‖(1 : ℂ)‖ ^ 2 * (Real.exp (-‖(g / 2 * (vec.getD 1 0 + vec.getD 0 0 * Complex.I) : ℂ)‖ ^ 2)
      / Real.pi)) := by
    have := Real.pi_pos
    have := Real.exp_pos (-‖(g / 2 * (vec.getD 1 0 + vec.getD 0 0 * Complex.I) : ℂ)‖ ^ 2)
    rw [norm_one]
    positivity
  simp only [one_ne_zero, if_false, zero_div, norm_zero, coef, if_true, pow_zero, mul_one, Nat.factorial_zero, Nat.cast_one,
    Real.sqrt_one, Complex.ofReal_one, div_one] at h1
  rw [show ((0 : ℝ) ^ 2 : ℝ) = 0 by norm_num] at h1
  rw [Complex.ofReal_zero, zero_mul, mul_zero, zero_mul] at h1
  have := Complex.ofReal_injective (h1.symm.trans Complex.ofReal_zero.symm)
  exact absurd this hpos.ne'

/-- a grid of three points and a qubit: an exception -/
example : husimiQ (.ket 2 fun _ => 1) [0, 1, 2] 1 = none :=
  C57_ket_raises 2 _ _ _ (by norm_num) (by simp) (by simp)

/-- the first excited state as a one-dimensional array, at `alpha = 1` -/
example : ∃ q, qfuncPure (.flat 2 fun m => if m = 1 then 1 else 0) ⟨1, 1, fun _ _ => 1⟩ = some q ∧
    q.entry 0 0 = (Real.exp (-1) / Real.pi : ℝ) := by
  obtain ⟨q, hq, _, _, he⟩ := C57_flat_partial 2 (fun m => if m = 1 then 1 else 0) ⟨1, 1, fun _ _ => 1⟩
  refine ⟨q, hq, ?_⟩
  rw [he 0 (by simp) 0 (by simp), coherentQ_eq]
  simp [coef, Finset.sum_range_succ]

end Verif.Toolbox.Husimi
