import Verif.Toolbox.Mixed

/-!
# C63: `eigenVecVal.py`
-/
namespace Verif.Toolbox.EigStat
open Matrix Verif.Toolbox

/-! ## Model -/

/-- `list((np.abs(EigVecs.flatten()))**2)` (`eigenVecVal.py:145`): row-major. -/
noncomputable def flatStat {d : ℕ} (E : Op d) : List ℝ :=
  (List.finRange d).flatMap fun i => (List.finRange d).map fun k => ‖E i k‖ ^ 2

/-- The loop over `int(len/2)` pairs with the running index `elSymplectic` (`eigenVecVal.py:168-173`, `205-208`). -/
def pairs (f : ℕ → ℝ) : ℕ → ℕ → List ℝ
  | 0, _ => []
  | n + 1, el => (f el + f (el + 1)) :: pairs f n (el + 2)

/-- `_eigsStatEigSymp` (`eigenVecVal.py:147-174`). The index stays in range (`pairs` reads below `2 * (d / 2)`), the value zero for other
indices is never used. -/
noncomputable def sympStat {d : ℕ} (E : Op d) : List ℝ :=
  (List.finRange d).flatMap fun ind => pairs (fun i => if h : i < d then ‖E ⟨i, h⟩ ind‖ ^ 2 else 0) (d / 2) 0

/-- `_eigStatEig` (`eigenVecVal.py:118-145`). `_eigStat(Mat, symp)` (`eigenVecVal.py:64-116`) is the same function of the matrix of eigenvectors computed by
`scipy.linalg.eig`, which is not modelled: the theorems hold for every matrix of eigenvectors. -/
noncomputable def eigStatEig {d : ℕ} (E : Op d) (symp : Bool := false) : List ℝ := if symp then sympStat E else flatStat E

/-- `eigVecStatKet` (`eigenVecVal.py:176-209`). `mat2Vec` of a ket is the ket. -/
noncomputable def eigVecStatKet {d : ℕ} (basis : List (Ket d)) (ket : Ket d) (symp : Bool := true) : List ℝ × List ℝ :=
  let regStat := basis.map fun state => fidelityPure (.ket state) (.ket ket)
  (regStat, if symp then pairs (fun i => regStat.getD i 0) (regStat.length / 2) 0 else [])

/-! ## Lists -/

theorem pairs_length (f : ℕ → ℝ) (n el : ℕ) : (pairs f n el).length = n := by
  induction n generalizing el with
  | zero => rfl
  | succ n ih => simp [pairs, ih]

theorem pairs_get (f : ℕ → ℝ) (n el m : ℕ) (hm : m < n) : (pairs f n el)[m]? = some (f (el + 2 * m) + f (el + 2 * m + 1)) := by
  induction n generalizing el m with
  | zero => omega
  | succ n ih =>
    cases m with
    | zero => simp [pairs]
    | succ m =>
      rw [pairs, List.getElem?_cons_succ, ih (el + 2) m (by omega)]
      congr 3 <;> ring

theorem pairs_sum (f : ℕ → ℝ) (n el : ℕ) : (pairs f n el).sum = ∑ i ∈ Finset.range (2 * n), f (el + i) := by
  induction n generalizing el with
  | zero => simp [pairs]
  | succ n ih =>
    rw [pairs, List.sum_cons, ih, show 2 * (n + 1) = 2 * n + 1 + 1 by ring, Finset.sum_range_succ', Finset.sum_range_succ']
    have : ∀ i, f (el + (i + 1 + 1)) = f (el + 2 + i) := fun i => by congr 1; ring
    simp only [this, add_zero, zero_add]
    ring

theorem flatMap_get {α β : Type} (l : List α) (f : α → List β) (n : ℕ) (hf : ∀ x ∈ l, (f x).length = n) (a b : ℕ) (hb : b < n) :
    (l.flatMap f)[a * n + b]? = l[a]?.bind fun x => (f x)[b]? := by
  induction l generalizing a with
  | nil => simp
  | cons x l ih =>
    rw [List.flatMap_cons]
    have hx : (f x).length = n := hf x (by simp)
    cases a with
    | zero =>
      rw [zero_mul, zero_add, List.getElem?_append_left (by omega)]
      simp
    | succ a =>
      rw [List.getElem?_append_right (by rw [hx]; nlinarith), hx]
      have : (a + 1) * n + b - n = a * n + b := by
        have : (a + 1) * n = a * n + n := by ring
        omega
      rw [this, ih (fun y hy => hf y (by simp [hy])), List.getElem?_cons_succ]

theorem flatMap_sum {α : Type} (l : List α) (f : α → List ℝ) : (l.flatMap f).sum = (l.map fun x => (f x).sum).sum := by
  induction l with
  | nil => rfl
  | cons x l ih => rw [List.flatMap_cons, List.sum_append, ih]; rfl

theorem finRange_sum {d : ℕ} (f : Fin d → ℝ) : ((List.finRange d).map f).sum = ∑ i, f i := by
  rw [← List.ofFn_eq_map, List.sum_ofFn]

/-! ## Theorems -/

section
variable {d : ℕ}

/-- **C63 (all components).** Entry `i*d + k` is the squared modulus of component `i` of eigenvector `k`; nothing else is returned. -/
theorem C63_flat (E : Op d) : (eigStatEig E).length = d * d ∧
    ∀ i k : Fin d, (eigStatEig E)[(i : ℕ) * d + k]? = some (‖E i k‖ ^ 2) := by
  constructor
  · simp [eigStatEig, flatStat, List.length_flatMap]
  · intro i k
    rw [eigStatEig, if_neg (by simp), flatStat, flatMap_get _ _ d (by simp) _ _ k.isLt]
    simp

/-- **C63 (pairs).** Entry `k*(d/2) + m` is the sum of the squared moduli of components `2m` and `2m+1` of eigenvector `k`. -/
theorem C63_symp (E : Op d) : (eigStatEig E true).length = d * (d / 2) ∧
    ∀ (k : Fin d) (m : ℕ) (hm : m < d / 2), (eigStatEig E true)[(k : ℕ) * (d / 2) + m]? =
      some (‖E ⟨2 * m, by omega⟩ k‖ ^ 2 + ‖E ⟨2 * m + 1, by omega⟩ k‖ ^ 2) := by
  constructor
  · simp [eigStatEig, sympStat, List.length_flatMap, pairs_length]
  · intro k m hm
    rw [eigStatEig, if_pos rfl, sympStat, flatMap_get _ _ (d / 2) (by simp [pairs_length]) _ _ hm]
    have h1 : 2 * m < d := by omega
    have h2 : 2 * m + 1 < d := by omega
    simp [pairs_get _ _ _ _ hm, h1, h2]

theorem symp_sum (E : Op d) : (eigStatEig E true).sum = ∑ k, ∑ i ∈ Finset.range (2 * (d / 2)), if h : i < d then ‖E ⟨i, h⟩ k‖ ^ 2 else 0 := by
  rw [eigStatEig, if_pos rfl, sympStat, flatMap_sum, finRange_sum]
  refine Finset.sum_congr rfl fun k _ => ?_
  rw [pairs_sum]
  simp

theorem sum_range_fin (f : Fin d → ℝ) : ∑ i ∈ Finset.range d, (if h : i < d then f ⟨i, h⟩ else 0) = ∑ i, f i :=
  (Finset.sum_range fun i => if h : i < d then f ⟨i, h⟩ else 0).trans (Finset.sum_congr rfl fun i _ => by simp)

/-- **C63 (sum).** For unit eigenvectors the values add up to `d`, also in pairs if the dimension is even. -/
theorem C63_sum (E : Op d) (hE : ∀ k, ∑ i, ‖E i k‖ ^ 2 = 1) : (eigStatEig E).sum = d ∧
    (Even d → (eigStatEig E true).sum = d) := by
  constructor
  · rw [eigStatEig, if_neg (by simp), flatStat, flatMap_sum, finRange_sum]
    simp only [finRange_sum]
    rw [Finset.sum_comm]
    simp [hE]
  · rintro ⟨n, hn⟩
    rw [symp_sum]
    have h2 : 2 * (d / 2) = d := by omega
    rw [h2]
    have : ∀ k, ∑ i ∈ Finset.range d, (if h : i < d then ‖E ⟨i, h⟩ k‖ ^ 2 else 0) = 1 := by
      intro k
      rw [sum_range_fin (fun i => ‖E i k‖ ^ 2), hE]
    simp [this]

/-- **C63 (odd dimensions).** In odd dimensions the last component of every eigenvector is left out of the pairs. -/
theorem C63_odd (hd : Odd d) (E : Op d) (hE : ∀ k, ∑ i, ‖E i k‖ ^ 2 = 1) :
    (eigStatEig E true).sum = d - ∑ k, ‖E ⟨d - 1, by have := hd.pos; omega⟩ k‖ ^ 2 := by
  obtain ⟨n, hn⟩ := hd
  rw [symp_sum]
  have h2 : 2 * (d / 2) = d - 1 := by omega
  rw [h2]
  have hlast : d - 1 < d := by omega
  have : ∀ k, ∑ i ∈ Finset.range (d - 1), (if h : i < d then ‖E ⟨i, h⟩ k‖ ^ 2 else 0) = 1 - ‖E ⟨d - 1, hlast⟩ k‖ ^ 2 := by
    intro k
    have h3 := sum_range_fin (fun i => ‖E i k‖ ^ 2)
    rw [hE] at h3
    have h4 : ∑ i ∈ Finset.range d, (if h : i < d then ‖E ⟨i, h⟩ k‖ ^ 2 else 0) =
        ∑ i ∈ Finset.range (d - 1), (if h : i < d then ‖E ⟨i, h⟩ k‖ ^ 2 else 0) + ‖E ⟨d - 1, hlast⟩ k‖ ^ 2 := by
      rw [show Finset.range d = Finset.range (d - 1 + 1) by congr 1; omega, Finset.sum_range_succ]
      simp [hlast]
    linarith
  simp only [this, Finset.sum_sub_distrib]
  simp

/-- **C63 (odd dimensions).** For orthonormal eigenvectors exactly one unit of weight is lost. -/
theorem C63_odd_unitary (hd : Odd d) (E : Op d) (hE : hc E * E = 1) : (eigStatEig E true).sum = d - 1 := by
  have hE' : Eᴴ * E = 1 := hE
  have hcol : ∀ k, ∑ i, ‖E i k‖ ^ 2 = 1 := by
    intro k
    have := congrFun (congrFun hE' k) k
    simp only [Matrix.mul_apply, conjTranspose_apply, one_apply_eq] at this
    have h2 : ((∑ i, ‖E i k‖ ^ 2 : ℝ) : ℂ) = 1 := by
      rw [← this]; push_cast
      refine Finset.sum_congr rfl fun a _ => ?_
      rw [RCLike.star_def, mul_comm, Complex.mul_conj']
    exact_mod_cast h2
  have hrow : ∀ i, ∑ k, ‖E i k‖ ^ 2 = 1 := by
    intro i
    have hE2 : E * Eᴴ = 1 := mul_eq_one_comm.mp hE'
    have := congrFun (congrFun hE2 i) i
    simp only [Matrix.mul_apply, conjTranspose_apply, one_apply_eq] at this
    have h2 : ((∑ k, ‖E i k‖ ^ 2 : ℝ) : ℂ) = 1 := by
      rw [← this]; push_cast
      refine Finset.sum_congr rfl fun a _ => ?_
      rw [RCLike.star_def, Complex.mul_conj']
    exact_mod_cast h2
  rw [C63_odd hd E hcol, hrow]

/-- Four and three dimensions. -/
example : (eigStatEig (1 : Op 4) true).sum = 4 ∧ (eigStatEig (1 : Op 3) true).sum = 2 := by
  constructor
  · have := (C63_sum (1 : Op 4) (by intro k; fin_cases k <;> simp [Fin.sum_univ_four, Matrix.one_apply])).2 ⟨2, rfl⟩
    simpa using this
  · have := C63_odd_unitary (d := 3) ⟨1, rfl⟩ 1 (by
      have : hc (1 : Op 3) = 1 := conjTranspose_one
      rw [this, Matrix.one_mul])
    rw [this]; norm_num

/-- **C63 (kets).** The components of a unit ket in an orthonormal basis add up to one, in pairs too if the dimension is even; in odd
dimensions the pairs miss the last component. -/
theorem C63_ket (hd : d ≠ 1) (bas : List (Ket d)) (hb : Parseval bas) (k : Ket d) (hk : IsUnit k) (symp : Bool) :
    (eigVecStatKet bas k symp).1 = bas.map (fun b => ‖innerProd b (some k)‖ ^ 2) ∧ (eigVecStatKet bas k symp).1.sum = 1 ∧
    (symp = true → Even bas.length → (eigVecStatKet bas k symp).2.sum = 1) ∧
    (symp = true → Odd bas.length → (eigVecStatKet bas k symp).2.sum = 1 - (eigVecStatKet bas k symp).1.getD (bas.length - 1) 0) := by
  have h1 : (eigVecStatKet bas k symp).1 = bas.map (fun b => ‖innerProd b (some k)‖ ^ 2) := by
    simp [eigVecStatKet, fidelityPure, hd]
  have h2 : (eigVecStatKet bas k symp).1.sum = 1 := by
    rw [h1, hb k]; exact hk
  have hlen : (eigVecStatKet bas k symp).1.length = bas.length := by rw [h1, List.length_map]
  have hs : ∀ l : List ℝ, ∑ i ∈ Finset.range l.length, l.getD i 0 = l.sum := by
    intro l
    induction l with
    | nil => simp
    | cons a l ih =>
      rw [List.length_cons, Finset.sum_range_succ', List.sum_cons, ← ih]
      simp [add_comm]
  have h3 : symp = true → (eigVecStatKet bas k symp).2.sum = ∑ i ∈ Finset.range (2 * (bas.length / 2)), (eigVecStatKet bas k symp).1.getD i 0 := by
    intro hsy
    subst hsy
    simp only [eigVecStatKet, if_true]
    rw [pairs_sum]
    simp
  have hsum := hs (eigVecStatKet bas k symp).1
  rw [hlen, h2] at hsum
  refine ⟨h1, h2, ?_, ?_⟩
  · rintro hsy ⟨n, hn⟩
    rw [h3 hsy, show 2 * (bas.length / 2) = bas.length by omega, hsum]
  · rintro hsy ⟨n, hn⟩
    rw [h3 hsy, show 2 * (bas.length / 2) = bas.length - 1 by omega]
    have : bas.length = bas.length - 1 + 1 := by omega
    rw [this, Finset.sum_range_succ] at hsum
    linarith

/-- **C63 (documentation).** The example of the docstring returns the components together with the pair sums instead of the list of
components. -/
theorem C63_docstring : eigVecStatKet (completeBasis 2) (basis 2 1) = ([0, 1], [1]) := by
  simp [eigVecStatKet, completeBasis, fidelityPure, List.range_succ, innerProd_eq, basis, pairs]
end

end Verif.Toolbox.EigStat
