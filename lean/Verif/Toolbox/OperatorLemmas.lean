import Verif.Toolbox.Operators
import Verif.Toolbox.EvolutionLemmas

/-! Helper lemmas: band matrices. -/
namespace Verif.Toolbox
open Matrix

/-- Matrix with `f i` at `(i, i+1)`. -/
def sup (d : ℕ) (f : ℕ → ℂ) : Op d := Matrix.of fun i j => if (i : ℕ) + 1 = (j : ℕ) then f i else 0
/-- Matrix with `f j` at `(j+1, j)`. -/
def sub (d : ℕ) (f : ℕ → ℂ) : Op d := Matrix.of fun i j => if (j : ℕ) + 1 = (i : ℕ) then f j else 0
/-- Diagonal matrix. -/
def diag (d : ℕ) (f : ℕ → ℂ) : Op d := Matrix.of fun i j => if (i : ℕ) = (j : ℕ) then f i else 0

theorem cscMatrix_sup (d : ℕ) (f : ℕ → ℂ) : cscMatrix d (d - 1) f 0 1 = sup d f := by
  ext i j
  simp only [cscMatrix, sup, Matrix.of_apply, Nat.add_zero]
  by_cases h : (i : ℕ) + 1 = j
  · rw [if_pos h, Finset.sum_eq_single (i : ℕ)]
    · simp [h]
    · intro k _ hk; simp [hk]
    · intro hk
      exact absurd (Finset.mem_range.mpr (by have := j.2; omega)) hk
  · rw [if_neg h]
    apply Finset.sum_eq_zero
    intro k _
    rw [if_neg]; rintro ⟨h1, h2⟩; omega

theorem cscMatrix_sub (d : ℕ) (f : ℕ → ℂ) : cscMatrix d (d - 1) f 1 0 = sub d f := by
  ext i j
  simp only [cscMatrix, sub, Matrix.of_apply, Nat.add_zero]
  by_cases h : (j : ℕ) + 1 = i
  · rw [if_pos h, Finset.sum_eq_single (j : ℕ)]
    · simp [h]
    · intro k _ hk; simp [hk]
    · intro hk
      exact absurd (Finset.mem_range.mpr (by have := i.2; omega)) hk
  · rw [if_neg h]
    apply Finset.sum_eq_zero
    intro k _
    rw [if_neg]; rintro ⟨h1, h2⟩; omega

theorem cscMatrix_diag (d : ℕ) (f : ℕ → ℂ) : cscMatrix d d f 0 0 = diag d f := by
  ext i j
  simp only [cscMatrix, diag, Matrix.of_apply, Nat.add_zero]
  by_cases h : (i : ℕ) = j
  · rw [if_pos h, Finset.sum_eq_single (i : ℕ)]
    · simp [h]
    · intro k _ hk; simp [hk]
    · intro hk
      exact absurd (Finset.mem_range.mpr i.2) hk
  · rw [if_neg h]
    apply Finset.sum_eq_zero
    intro k _
    rw [if_neg]; rintro ⟨h1, h2⟩; omega

theorem sup_mul_sub (d : ℕ) (f g : ℕ → ℂ) :
    sup d f * sub d g = diag d fun i => if i + 1 < d then f i * g i else 0 := by
  ext i j
  simp only [Matrix.mul_apply, sup, sub, diag, Matrix.of_apply]
  by_cases hi : (i : ℕ) + 1 < d
  · rw [Finset.sum_eq_single ⟨(i : ℕ) + 1, hi⟩]
    · by_cases h : (i : ℕ) = j
      · have hj : (j : ℕ) + 1 < d := h ▸ hi
        simp [h, hj]
      · have : ¬ ((j : ℕ) = (i : ℕ)) := by omega
        simp [h, this]
    · intro k _ hk
      have : ¬ ((i : ℕ) + 1 = (k : ℕ)) := fun h => hk (Fin.ext h.symm)
      simp [this]
    · simp
  · rw [Finset.sum_eq_zero]
    · simp [hi]
    · intro k _
      have : ¬ ((i : ℕ) + 1 = (k : ℕ)) := by have := k.2; omega
      simp [this]

theorem sub_mul_sup (d : ℕ) (f g : ℕ → ℂ) :
    sub d f * sup d g = diag d fun i => if i = 0 then 0 else f (i - 1) * g (i - 1) := by
  ext i j
  simp only [Matrix.mul_apply, sup, sub, diag, Matrix.of_apply]
  by_cases hi : (i : ℕ) = 0
  · rw [Finset.sum_eq_zero]
    · simp [hi]
    · intro k _
      have : ¬ ((k : ℕ) + 1 = (i : ℕ)) := by omega
      simp [this]
  · rw [Finset.sum_eq_single ⟨(i : ℕ) - 1, by have := i.2; omega⟩]
    · have h1 : (i : ℕ) - 1 + 1 = i := by omega
      by_cases h : (i : ℕ) = j
      · have h2 : (j : ℕ) - 1 + 1 = j := by omega
        have h3 : ¬ ((j : ℕ) = 0) := by omega
        simp [h, h2, h3]
      · simp [h1, h]
    · intro k _ hk
      have : ¬ ((k : ℕ) + 1 = (i : ℕ)) := fun h => hk (Fin.ext (by simp; omega))
      simp [this]
    · simp

theorem diag_mul_sup (d : ℕ) (a f : ℕ → ℂ) : diag d a * sup d f = sup d fun i => a i * f i := by
  ext i j
  simp only [Matrix.mul_apply, sup, diag, Matrix.of_apply]
  rw [Finset.sum_eq_single i]
  · by_cases h : (i : ℕ) + 1 = j <;> simp [h]
  · intro k _ hk
    have : ¬ ((i : ℕ) = (k : ℕ)) := fun h => hk (Fin.ext h.symm)
    simp [this]
  · simp

theorem sup_mul_diag (d : ℕ) (a f : ℕ → ℂ) : sup d f * diag d a = sup d fun i => f i * a (i + 1) := by
  ext i j
  simp only [Matrix.mul_apply, sup, diag, Matrix.of_apply]
  rw [Finset.sum_eq_single j]
  · by_cases h : (i : ℕ) + 1 = j <;> simp [h]
  · intro k _ hk
    have : ¬ ((k : ℕ) = (j : ℕ)) := fun h => hk (Fin.ext h)
    simp [this]
  · simp

theorem diag_mul_sub (d : ℕ) (a f : ℕ → ℂ) : diag d a * sub d f = sub d fun i => a (i + 1) * f i := by
  ext i j
  simp only [Matrix.mul_apply, sub, diag, Matrix.of_apply]
  rw [Finset.sum_eq_single i]
  · by_cases h : (j : ℕ) + 1 = i <;> simp [h]
  · intro k _ hk
    have : ¬ ((i : ℕ) = (k : ℕ)) := fun h => hk (Fin.ext h.symm)
    simp [this]
  · simp

theorem sub_mul_diag (d : ℕ) (a f : ℕ → ℂ) : sub d f * diag d a = sub d fun i => f i * a i := by
  ext i j
  simp only [Matrix.mul_apply, sub, diag, Matrix.of_apply]
  rw [Finset.sum_eq_single j]
  · by_cases h : (j : ℕ) + 1 = i <;> simp [h]
  · intro k _ hk
    have : ¬ ((k : ℕ) = (j : ℕ)) := fun h => hk (Fin.ext h)
    simp [this]
  · simp

theorem diag_mul_diag (d : ℕ) (a f : ℕ → ℂ) : diag d a * diag d f = diag d fun i => a i * f i := by
  ext i j
  simp only [Matrix.mul_apply, diag, Matrix.of_apply]
  rw [Finset.sum_eq_single j]
  · by_cases h : (i : ℕ) = j <;> simp [h]
  · intro k _ hk
    have : ¬ ((k : ℕ) = (j : ℕ)) := fun h => hk (Fin.ext h)
    simp [this]
  · simp

theorem diag_one (d : ℕ) : diag d (fun _ => 1) = 1 := by
  ext i j; simp [diag, Matrix.one_apply, Fin.ext_iff]

theorem diag_eq_diagonal (d : ℕ) (f : ℕ → ℂ) : diag d f = Matrix.diagonal fun i : Fin d => f i := by
  ext i j; simp [diag, Matrix.diagonal_apply, Fin.ext_iff]

theorem hc_sup (d : ℕ) (f : ℕ → ℂ) : hc (sup d f) = sub d fun i => (starRingEnd ℂ) (f i) := by
  ext i j
  simp only [hc, sup, sub, Matrix.map_apply, Matrix.transpose_apply, Matrix.of_apply]
  split_ifs <;> simp

theorem hc_sub (d : ℕ) (f : ℕ → ℂ) : hc (sub d f) = sup d fun i => (starRingEnd ℂ) (f i) := by
  ext i j
  simp only [hc, sup, sub, Matrix.map_apply, Matrix.transpose_apply, Matrix.of_apply]
  split_ifs <;> simp

theorem hc_diag (d : ℕ) (f : ℕ → ℂ) : hc (diag d f) = diag d fun i => (starRingEnd ℂ) (f i) := by
  ext i j
  simp only [hc, diag, Matrix.map_apply, Matrix.transpose_apply, Matrix.of_apply]
  by_cases h : (i : ℕ) = j
  · simp [h]
  · have : ¬ ((j : ℕ) = (i : ℕ)) := fun h' => h h'.symm
    simp [h, this]

theorem sqrt_mul_self_ofReal {x : ℝ} (hx : 0 ≤ x) : ((Real.sqrt x : ℝ) : ℂ) * ((Real.sqrt x : ℝ) : ℂ) = (x : ℂ) := by
  rw [← Complex.ofReal_mul, Real.mul_self_sqrt hx]

end Verif.Toolbox
