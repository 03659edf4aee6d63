import Verif.NMat.Basic

/-! Lemmas about `NMat`. -/
namespace Verif.NMat

open Finset

theorem sum_range_divMod {M : Type*} [AddCommMonoid M] (m n : ℕ) (f : ℕ → ℕ → M) :
    ∑ k ∈ range (m * n), f (k / n) (k % n) = ∑ a ∈ range m, ∑ b ∈ range n, f a b := by
  induction m with
  | zero => simp
  | succ m ih =>
    rw [Nat.succ_mul, Finset.sum_range_add, ih, Finset.sum_range_succ]
    congr 1
    apply Finset.sum_congr rfl
    intro b hb
    have hb' := Finset.mem_range.mp hb
    have h1 : (m * n + b) / n = m := by
      rw [Nat.add_comm, Nat.add_mul_div_right _ _ (by omega), Nat.div_eq_of_lt hb', Nat.zero_add]
    have h2 : (m * n + b) % n = b := by
      rw [Nat.add_comm, Nat.add_mul_mod_self_right, Nat.mod_eq_of_lt hb']
    rw [h1, h2]

theorem Same.kron {A A' B B' : Mat} (h : Same A A') (k : Same B B') : Same (kron A B) (kron A' B') := by
  obtain ⟨h1, h2, h3⟩ := h
  obtain ⟨k1, k2, k3⟩ := k
  refine ⟨by simp [NMat.kron, h1, k1], by simp [NMat.kron, h2, k2], ?_⟩
  intro i hi j hj
  simp only [NMat.kron] at hi hj ⊢
  have hBr : 0 < B.rows := Nat.pos_of_ne_zero (by rintro h0; simp [h0] at hi)
  have hBc : 0 < B.cols := Nat.pos_of_ne_zero (by rintro h0; simp [h0] at hj)
  rw [h3 _ (Nat.div_lt_of_lt_mul (by rwa [Nat.mul_comm])) _ (Nat.div_lt_of_lt_mul (by rwa [Nat.mul_comm])),
    k3 _ (Nat.mod_lt _ hBr) _ (Nat.mod_lt _ hBc), k1, k2]

theorem Same.hc {A A' : Mat} (h : Same A A') : Same (hc A) (hc A') :=
  ⟨h.2.1, h.1, fun i hi j hj => by simp only [NMat.hc]; rw [h.2.2 j hj i hi]⟩

theorem Same.mul {A A' B B' : Mat} (h : Same A A') (k : Same B B') (hAB : A.cols = B.rows) :
    Same (mul A B) (mul A' B') := by
  refine ⟨h.1, k.2.1, fun i hi j hj => ?_⟩
  simp only [NMat.mul] at hi hj ⊢
  rw [← h.2.1]
  apply Finset.sum_congr rfl
  intro c hc
  have hc' := Finset.mem_range.mp hc
  rw [h.2.2 i hi c hc', k.2.2 c (hAB ▸ hc') j hj]

theorem Same.add {A A' B B' : Mat} (h : Same A A') (k : Same B B') (hr : A.rows = B.rows) (hc : A.cols = B.cols) :
    Same (add A B) (add A' B') :=
  ⟨h.1, h.2.1, fun i hi j hj => by
    simp only [NMat.add] at hi hj ⊢
    rw [h.2.2 i hi j hj, k.2.2 i (hr ▸ hi) j (hc ▸ hj)]⟩

theorem Same.trace {A A' : Mat} (h : Same A A') : trace A = trace A' := by
  simp only [NMat.trace, ← h.1, ← h.2.1]
  apply Finset.sum_congr rfl
  intro k hk
  have := Finset.mem_range.mp hk
  exact h.2.2 k (by omega) k (by omega)

/-- Associativity holds for all indices, inside the shape or not. -/
theorem kron_assoc (A B C : Mat) : kron (kron A B) C = kron A (kron B C) := by
  simp only [kron, Nat.mul_assoc]
  congr 1
  funext i j
  rw [Nat.div_div_eq_div_mul, Nat.div_div_eq_div_mul, Nat.mod_mul_left_mod, Nat.mod_mul_left_mod,
    Nat.mul_comm C.rows, Nat.mul_comm C.cols, mul_assoc]
  rw [Nat.mul_comm B.rows C.rows, Nat.mul_comm B.cols C.cols, Nat.mod_mul_right_div_self, Nat.mod_mul_right_div_self]

theorem kron_hc (A B : Mat) : hc (kron A B) = kron (hc A) (hc B) := by
  simp [hc, kron]

theorem kron_mul (A B C D : Mat) (_ : A.cols = C.rows) (hBD : B.cols = D.rows) :
    mul (kron A B) (kron C D) = kron (mul A C) (mul B D) := by
  simp only [mul, kron]
  congr 1
  funext i j
  rw [← hBD]
  rw [sum_range_divMod A.cols B.cols (fun a b =>
    A.entry (i / B.rows) a * B.entry (i % B.rows) b * (C.entry a (j / D.cols) * D.entry b (j % D.cols)))]
  rw [Finset.sum_mul_sum]
  apply Finset.sum_congr rfl
  intro a _
  apply Finset.sum_congr rfl
  intro b _
  ring

theorem kron_ident (m n : ℕ) : Same (kron (ident m) (ident n)) (ident (m * n)) := by
  refine ⟨rfl, rfl, fun i hi j hj => ?_⟩
  simp only [kron, ident]
  have hn : 0 < n := Nat.pos_of_ne_zero (by rintro rfl; simp [kron, ident] at hi)
  by_cases h : i = j
  · subst h; simp
  · rw [if_neg h]
    by_cases h1 : i / n = j / n
    · have h2 : i % n ≠ j % n := by
        intro h2
        apply h
        rw [← Nat.div_add_mod i n, ← Nat.div_add_mod j n, h1, h2]
      simp [h2]
    · simp [h1]

theorem kron_ident_one_right (A : Mat) : Same (kron A (ident 1)) A := by
  refine ⟨by simp [kron, ident], by simp [kron, ident], fun i hi j hj => ?_⟩
  simp [kron, ident, Nat.mod_one]

theorem kron_ident_one_left (A : Mat) : Same (kron (ident 1) A) A := by
  refine ⟨by simp [kron, ident], by simp [kron, ident], fun i hi j hj => ?_⟩
  simp only [kron, ident, Nat.one_mul] at hi hj ⊢
  rw [Nat.div_eq_of_lt hi, Nat.div_eq_of_lt hj, Nat.mod_eq_of_lt hi, Nat.mod_eq_of_lt hj]
  simp

theorem mul_ident_right (A : Mat) : Same (mul A (ident A.cols)) A := by
  refine ⟨rfl, rfl, fun i hi j hj => ?_⟩
  simp only [mul, ident] at hi hj ⊢
  rw [Finset.sum_eq_single j]
  · simp
  · intro k _ hk; simp [hk]
  · intro h; exact absurd (Finset.mem_range.mpr hj) h

theorem mul_ident_left (A : Mat) : Same (mul (ident A.rows) A) A := by
  refine ⟨rfl, rfl, fun i hi j hj => ?_⟩
  simp only [mul, ident] at hi hj ⊢
  rw [Finset.sum_eq_single i]
  · simp
  · intro k _ hk; simp [Ne.symm hk]
  · intro h; exact absurd (Finset.mem_range.mpr hi) h

theorem trace_kron (A B : Mat) (hA : A.rows = A.cols) (hB : B.rows = B.cols) :
    trace (kron A B) = trace A * trace B := by
  simp only [trace, kron, ← hA, ← hB, min_self]
  rw [sum_range_divMod A.rows B.rows (fun a b => A.entry a a * B.entry b b), Finset.sum_mul_sum]

/-- The matrix an argument stands for. -/
def Arg.toMat : Arg → Mat
  | .int n => ident n
  | .mat A => A

theorem tensorProd_cons (a : Arg) (rest : List Arg) :
    tensorProd (a :: rest) = some (match tensorProd rest with
      | none => a.toMat
      | some B => kron a.toMat B) := by
  cases rest with
  | nil => cases a <;> simp [tensorProd, Arg.toMat]
  | cons b bs =>
    have : ∃ B, tensorProd (b :: bs) = some B := by
      induction bs generalizing b with
      | nil => cases b <;> simp [tensorProd]
      | cons c cs ih =>
        obtain ⟨B, hB⟩ := ih c
        simp [tensorProd.eq_def (b :: _), hB]
    obtain ⟨B, hB⟩ := this
    rw [tensorProd.eq_def]
    simp only [List.length_cons, gt_iff_lt, Nat.zero_lt_succ, if_true, hB]
    cases a <;> rfl

end Verif.NMat
