import Verif.Toolbox.EvolutionProps
import Verif.NMat.Props

/-!
# `compositeOp` on matrices with fixed sizes

`compositeOp` (`operators.py:928-966`) places an operator between the identities of the dimensions before and after it.
`Verif.NMat.compositeOp` models the code with run-time shapes; here the same matrix as a Mathlib matrix, proved to agree
(`emb_eq_compositeOp`).
-/
namespace Verif.Toolbox
open Matrix Kronecker

/-- The place of a system inside a space of dimension `D` (`_dimsBefore`, `dimension`, `_dimsAfter` of a quantum system). -/
structure Place (D : ℕ) where
  before : ℕ
  dim    : ℕ
  after  : ℕ
  total  : before * dim * after = D

variable {D : ℕ}

/-- `identity(before) x A x identity(after)` as a `D x D` matrix. -/
def emb (p : Place D) (A : Op p.dim) : Op D :=
  Matrix.reindex (finCongr p.total) (finCongr p.total) (kron (kron (1 : Op p.before) A) (1 : Op p.after))

theorem kron_eq {m n p q : ℕ} (A : Matrix (Fin m) (Fin n) ℂ) (B : Matrix (Fin p) (Fin q) ℂ) :
    kron A B = Matrix.reindex finProdFinEquiv finProdFinEquiv (A ⊗ₖ B) := by
  ext i j; simp [kron, Matrix.kroneckerMap_apply]

theorem kron_mul_kron {l m n p q r : ℕ} (A : Matrix (Fin l) (Fin m) ℂ) (B : Matrix (Fin m) (Fin n) ℂ)
    (A' : Matrix (Fin p) (Fin q) ℂ) (B' : Matrix (Fin q) (Fin r) ℂ) :
    kron A A' * kron B B' = kron (A * B) (A' * B') := by
  simp only [kron_eq, Matrix.mul_kronecker_mul, Matrix.reindex_apply, Matrix.submatrix_mul_equiv]

theorem kron_one_one (m n : ℕ) : kron (1 : Op m) (1 : Op n) = 1 := by
  simp [kron_eq]

theorem emb_mul (p : Place D) (A B : Op p.dim) : emb p (A * B) = emb p A * emb p B := by
  simp only [emb, Matrix.reindex_apply, Matrix.submatrix_mul_equiv, kron_mul_kron, Matrix.one_mul]

theorem emb_one (p : Place D) : emb p 1 = 1 := by
  simp only [emb, kron_one_one, Matrix.reindex_apply, Matrix.submatrix_one_equiv]

theorem emb_entry (p : Place D) (A : Op p.dim) (i j : Fin D) :
    emb p A i j = (1 : Op p.before) (finProdFinEquiv.symm (finProdFinEquiv.symm (Fin.cast p.total.symm i)).1).1
        (finProdFinEquiv.symm (finProdFinEquiv.symm (Fin.cast p.total.symm j)).1).1 *
      A (finProdFinEquiv.symm (finProdFinEquiv.symm (Fin.cast p.total.symm i)).1).2
        (finProdFinEquiv.symm (finProdFinEquiv.symm (Fin.cast p.total.symm j)).1).2 *
      (1 : Op p.after) (finProdFinEquiv.symm (Fin.cast p.total.symm i)).2
        (finProdFinEquiv.symm (Fin.cast p.total.symm j)).2 := by
  rfl

theorem emb_add (p : Place D) (A B : Op p.dim) : emb p (A + B) = emb p A + emb p B := by
  ext i j; simp only [emb_entry, Matrix.add_apply]; ring

theorem emb_smul (p : Place D) (c : ℂ) (A : Op p.dim) : emb p (c • A) = c • emb p A := by
  ext i j; simp only [emb_entry, Matrix.smul_apply, smul_eq_mul]; ring

theorem emb_zero (p : Place D) : emb p 0 = 0 := by
  ext i j; simp [emb_entry]

theorem emb_neg (p : Place D) (A : Op p.dim) : emb p (-A) = -emb p A := by
  ext i j; simp [emb_entry]

theorem emb_sub (p : Place D) (A B : Op p.dim) : emb p (A - B) = emb p A - emb p B := by
  rw [sub_eq_add_neg, emb_add, emb_neg, ← sub_eq_add_neg]

theorem star_one_apply {n : ℕ} (i j : Fin n) : star ((1 : Op n) j i) = (1 : Op n) i j := by
  rw [Matrix.one_apply, Matrix.one_apply]
  by_cases h : i = j
  · simp [h]
  · have h' : ¬ j = i := fun e => h e.symm
    simp [h, h']

theorem emb_conjTranspose (p : Place D) (A : Op p.dim) : emb p Aᴴ = (emb p A)ᴴ := by
  ext i j
  simp only [emb_entry, Matrix.conjTranspose_apply, star_mul', star_one_apply]

theorem emb_pow (p : Place D) (A : Op p.dim) (k : ℕ) : emb p (A ^ k) = emb p A ^ k := by
  induction k with
  | zero => simp [emb_one]
  | succ k ih => rw [pow_succ, pow_succ, emb_mul, ih]

theorem continuous_emb (p : Place D) : Continuous (emb p) := by
  refine continuous_matrix fun i j => ?_
  simp only [emb_entry]
  exact (continuous_const.mul (continuous_id.matrix_elem _ _)).mul continuous_const

/-- The exponential of an embedded operator is the embedded exponential. -/
theorem emb_exp (p : Place D) (A : Op p.dim) : emb p (NormedSpace.exp A) = NormedSpace.exp (emb p A) := by
  have h1 : HasSum (fun k : ℕ => emb p (((k.factorial : ℂ)⁻¹) • A ^ k)) (emb p (NormedSpace.exp A)) :=
    (hasSum_exp A).map (AddMonoidHom.mk' (emb p) (emb_add p)) (continuous_emb p)
  have h2 := hasSum_exp (emb p A)
  simp only [emb_smul, emb_pow] at h1
  exact h1.unique h2

theorem emb_unitaryOp (p : Place D) (H : Op p.dim) (t : ℝ) : emb p (unitaryOp H t) = unitaryOp (emb p H) t := by
  rw [unitaryOp, emb_exp, emb_smul, emb_smul, unitaryOp]

/-- The index of the composite space with the given indices before, inside and after the place. -/
def Place.idx (p : Place D) (b : Fin p.before) (i : Fin p.dim) (a : Fin p.after) : Fin D :=
  Fin.cast p.total (finProdFinEquiv (finProdFinEquiv (b, i), a))

theorem emb_apply (p : Place D) (A : Op p.dim) (b b' : Fin p.before) (i j : Fin p.dim) (a a' : Fin p.after) :
    emb p A (p.idx b i a) (p.idx b' j a') = if b = b' ∧ a = a' then A i j else 0 := by
  obtain ⟨n, d, m, rfl⟩ := p
  have e : ∀ (b : Fin n) (i : Fin d) (a : Fin m), (Place.idx ⟨n, d, m, rfl⟩ b i a : Fin (n * d * m)) =
    finProdFinEquiv (finProdFinEquiv (b, i), a) := fun _ _ _ => rfl
  simp only [e]
  rw [emb_entry]
  simp only [Fin.cast_eq_self]
  rw [Equiv.symm_apply_apply, Equiv.symm_apply_apply]
  simp only [Equiv.symm_apply_apply, Matrix.one_apply]
  by_cases h1 : b = b' <;> by_cases h2 : a = a' <;> simp [h1, h2]

theorem Place.exists_idx (p : Place D) (k : Fin D) : ∃ b i a, k = p.idx b i a := by
  refine ⟨(finProdFinEquiv.symm (finProdFinEquiv.symm (Fin.cast p.total.symm k)).1).1,
    (finProdFinEquiv.symm (finProdFinEquiv.symm (Fin.cast p.total.symm k)).1).2,
    (finProdFinEquiv.symm (Fin.cast p.total.symm k)).2, ?_⟩
  simp only [Place.idx, Prod.mk.eta, Equiv.apply_symm_apply]
  rfl

theorem emb_injective (p : Place D) (hD : 0 < D) : Function.Injective (emb p) := by
  have hb : 0 < p.before := Nat.pos_of_ne_zero (by intro h; have := p.total; simp [h] at this; omega)
  have ha : 0 < p.after := Nat.pos_of_ne_zero (by intro h; have := p.total; simp [h] at this; omega)
  intro A B h
  ext i j
  have := congrFun (congrFun h (p.idx ⟨0, hb⟩ i ⟨0, ha⟩)) (p.idx ⟨0, hb⟩ j ⟨0, ha⟩)
  simpa [emb_apply] using this

/-! ## Agreement with the run-time version -/

/-- The run-time matrix of a Mathlib matrix. -/
def toNMat {m n : ℕ} (A : Matrix (Fin m) (Fin n) ℂ) : NMat.Mat :=
  ⟨m, n, fun i j => if h : i < m ∧ j < n then A ⟨i, h.1⟩ ⟨j, h.2⟩ else 0⟩

theorem toNMat_kron {m n p q : ℕ} (A : Matrix (Fin m) (Fin n) ℂ) (B : Matrix (Fin p) (Fin q) ℂ) :
    NMat.Same (toNMat (kron A B)) (NMat.kron (toNMat A) (toNMat B)) := by
  refine ⟨rfl, rfl, fun i hi j hj => ?_⟩
  simp only [toNMat] at hi hj ⊢
  have hp : 0 < p := Nat.pos_of_ne_zero (by rintro rfl; simp at hi)
  have hq : 0 < q := Nat.pos_of_ne_zero (by rintro rfl; simp at hj)
  have h1 : i / p < m := Nat.div_lt_of_lt_mul (by rwa [Nat.mul_comm])
  have h2 : j / q < n := Nat.div_lt_of_lt_mul (by rwa [Nat.mul_comm])
  simp only [NMat.kron, hi, hj, h1, h2, Nat.mod_lt _ hp, Nat.mod_lt _ hq, and_self, dif_pos, kron, Matrix.of_apply]
  rfl

theorem toNMat_one (n : ℕ) : NMat.Same (toNMat (1 : Op n)) (NMat.ident n) := by
  refine ⟨rfl, rfl, fun i hi j hj => ?_⟩
  simp only [toNMat] at hi hj ⊢
  simp [NMat.ident, hi, hj, Matrix.one_apply]

theorem toNMat_cast {m n : ℕ} (h : m = n) (A : Op m) :
    toNMat (Matrix.reindex (finCongr h) (finCongr h) A) = toNMat A := by
  subst h; rfl

theorem toNMat_mul {l m n : ℕ} (A : Matrix (Fin l) (Fin m) ℂ) (B : Matrix (Fin m) (Fin n) ℂ) :
    NMat.Same (toNMat (A * B)) (NMat.mul (toNMat A) (toNMat B)) := by
  refine ⟨rfl, rfl, fun i hi j hj => ?_⟩
  simp only [toNMat] at hi hj ⊢
  simp only [NMat.mul, hi, hj, and_self, dif_pos, Matrix.mul_apply, true_and, and_true]
  rw [← Fin.sum_univ_eq_sum_range (fun k => (if h : k < m then A ⟨i, hi⟩ ⟨k, h⟩ else 0) *
    (if h : k < m then B ⟨k, h⟩ ⟨j, hj⟩ else 0)) m]
  apply Finset.sum_congr rfl
  intro k _
  simp

/-- `emb` is what `compositeOp` returns, for all positive dimensions. -/
theorem emb_eq_compositeOp (p : Place D) (A : Op p.dim) (hD : 0 < D) :
    ∃ C, NMat.compositeOp (toNMat A) p.before p.after = some C ∧ NMat.Same C (toNMat (emb p A)) := by
  have hb : 0 < p.before := Nat.pos_of_ne_zero (by intro h; have := p.total; simp [h] at this; omega)
  have ha : 0 < p.after := Nat.pos_of_ne_zero (by intro h; have := p.total; simp [h] at this; omega)
  obtain ⟨C, hC, hs⟩ := NMat.compositeOp_same (toNMat A) p.before p.after hb ha
  refine ⟨C, hC, hs.trans ?_⟩
  rw [emb, toNMat_cast]
  exact (((toNMat_one _).symm.kron (NMat.Same.refl _)).trans (toNMat_kron _ _).symm |>.kron (toNMat_one _).symm).trans
    (toNMat_kron _ _).symm

end Verif.Toolbox
