import Verif.NMat.Lemmas
import Mathlib.Tactic.FinCases
import Mathlib.Tactic.NormNum
import Mathlib.Tactic.Ring

/-!
# C38: tensor product laws, for any number of factors
-/
namespace Verif.NMat

open Finset

theorem tensorProd_ne_none {xs : List Arg} (h : xs ≠ []) : ∃ A, tensorProd xs = some A := by
  cases xs with
  | nil => exact absurd rfl h
  | cons a r => exact ⟨_, tensorProd_cons a r⟩

/-- **C38 (when defined).** Only a call without arguments fails; a single matrix is returned as it is. -/
theorem C38_defined (xs : List Arg) (A : Mat) : (tensorProd xs = none ↔ xs = []) ∧ tensorProd [.mat A] = some A := by
  refine ⟨?_, rfl⟩
  induction xs with
  | nil => simp [tensorProd]
  | cons a rest ih =>
    unfold tensorProd
    cases rest with
    | nil => cases a <;> simp
    | cons b rest =>
      have : tensorProd (b :: rest) ≠ none := fun h => by simpa using ih.mp h
      cases h : tensorProd (b :: rest) with
      | none => exact absurd h this
      | some B => simp

/-- **C38 (associativity / grouping).** Splitting the arguments anywhere and taking the tensor product of the two tensor
products gives the same matrix (equality, not only up to reshaping). -/
theorem C38_grouping (xs ys : List Arg) (A B : Mat) (hx : tensorProd xs = some A) (hy : tensorProd ys = some B) :
    tensorProd (xs ++ ys) = tensorProd [.mat A, .mat B] ∧ tensorProd [.mat A, .mat B] = some (kron A B) := by
  have h2 : tensorProd [.mat A, .mat B] = some (kron A B) := by
    simp [tensorProd]
  refine ⟨?_, h2⟩
  rw [h2]
  induction xs generalizing A with
  | nil => simp [tensorProd] at hx
  | cons a r ih =>
    rw [List.cons_append, tensorProd_cons]
    rw [tensorProd_cons] at hx
    by_cases hr : r = []
    · subst hr
      simp only [tensorProd, Option.some.injEq] at hx
      simp [hy, hx]
    · obtain ⟨C, hC⟩ := tensorProd_ne_none hr
      have := ih C hC (by simp [tensorProd])
      simp only [hC, Option.some.injEq] at hx
      simp only [this, ← hx, kron_assoc]

/-- The number of rows (columns) of the tensor product is the product of those of the factors. -/
theorem C38_shape (xs : List Arg) (A : Mat) (h : tensorProd xs = some A) :
    A.rows = (xs.map fun a => a.toMat.rows).prod ∧ A.cols = (xs.map fun a => a.toMat.cols).prod := by
  induction xs generalizing A with
  | nil => simp [tensorProd] at h
  | cons a r ih =>
    rw [tensorProd_cons, Option.some.injEq] at h
    by_cases hr : r = []
    · subst hr; simp only [tensorProd] at h; subst h; simp
    · obtain ⟨C, hC⟩ := tensorProd_ne_none hr
      rw [hC] at h; simp only at h; subst h
      have := ih C hC
      simp [kron, this.1, this.2]

/-- Mixed-radix digits of `i` with respect to the sizes `ds`, most significant first. -/
def digits : List ℕ → ℕ → List ℕ
  | [], _ => []
  | _ :: ds, i => i / ds.prod :: digits ds (i % ds.prod)

/-- **C38 (entries).** The entry of a tensor product is the product of the entries of the factors at the mixed-radix digits
of the row and the column index: the first factor is the slowest one. -/
theorem C38_entry (xs : List Arg) (A : Mat) (h : tensorProd xs = some A) (i j : ℕ) (hi : i < A.rows) (hj : j < A.cols) :
    A.entry i j = (List.zipWith (fun (a : Arg) (p : ℕ × ℕ) => a.toMat.entry p.1 p.2) xs
      ((digits (xs.map fun a => a.toMat.rows) i).zip (digits (xs.map fun a => a.toMat.cols) j))).prod := by
  induction xs generalizing A i j with
  | nil => simp [tensorProd] at h
  | cons a r ih =>
    rw [tensorProd_cons, Option.some.injEq] at h
    by_cases hr : r = []
    · subst hr; simp only [tensorProd] at h; subst h
      simp [digits]
    · obtain ⟨C, hC⟩ := tensorProd_ne_none hr
      rw [hC] at h; simp only at h; subst h
      obtain ⟨s1, s2⟩ := C38_shape r C hC
      simp only [kron] at hi hj ⊢
      have hr0 : 0 < C.rows := Nat.pos_of_ne_zero (by rintro h0; simp [h0] at hi)
      have hc0 : 0 < C.cols := Nat.pos_of_ne_zero (by rintro h0; simp [h0] at hj)
      rw [ih C hC _ _ (Nat.mod_lt _ hr0) (Nat.mod_lt _ hc0)]
      simp only [List.map_cons, digits, List.zip_cons_cons, List.zipWith_cons_cons, List.prod_cons, ← s1, ← s2]

/-- **C38 (products).** The product of two tensor products with matching factors is the tensor product of the products. -/
theorem C38_mixed_product (ps : List (Mat × Mat)) (hps : ∀ p ∈ ps, p.1.cols = p.2.rows) (A B : Mat)
    (hA : tensorProd (ps.map fun p => .mat p.1) = some A) (hB : tensorProd (ps.map fun p => .mat p.2) = some B) :
    tensorProd (ps.map fun p => .mat (mul p.1 p.2)) = some (mul A B) := by
  induction ps generalizing A B with
  | nil => simp [tensorProd] at hA
  | cons p r ih =>
    rw [List.map_cons, tensorProd_cons, Option.some.injEq] at hA hB
    rw [List.map_cons, tensorProd_cons]
    by_cases hr : r = []
    · subst hr
      simp only [List.map_nil, tensorProd, Arg.toMat] at hA hB ⊢
      rw [hA, hB]
    · obtain ⟨C, hC⟩ := tensorProd_ne_none (xs := r.map fun p => Arg.mat p.1) (by simpa using hr)
      obtain ⟨D, hD⟩ := tensorProd_ne_none (xs := r.map fun p => Arg.mat p.2) (by simpa using hr)
      have := ih (fun q hq => hps q (List.mem_cons_of_mem _ hq)) C D hC hD
      rw [hC] at hA; rw [hD] at hB
      simp only [Arg.toMat] at hA hB ⊢
      subst hA; subst hB
      rw [this]
      simp only
      rw [kron_mul _ _ _ _ (hps p List.mem_cons_self)]
      rw [(C38_shape _ _ hC).2, (C38_shape _ _ hD).1]
      simp only [List.map_map, Function.comp_def, Arg.toMat]
      congr 1
      apply List.map_congr_left
      intro q hq
      exact hps q (List.mem_cons_of_mem _ hq)

/-- **C38 (Hermitian conjugate).** -/
theorem C38_hc (xs : List Mat) (A : Mat) (hA : tensorProd (xs.map .mat) = some A) :
    tensorProd (xs.map fun X => .mat (hc X)) = some (hc A) := by
  induction xs generalizing A with
  | nil => simp [tensorProd] at hA
  | cons p r ih =>
    rw [List.map_cons, tensorProd_cons, Option.some.injEq] at hA
    rw [List.map_cons, tensorProd_cons]
    by_cases hr : r = []
    · subst hr
      simp only [List.map_nil, tensorProd, Arg.toMat] at hA ⊢
      rw [hA]
    · obtain ⟨C, hC⟩ := tensorProd_ne_none (xs := r.map Arg.mat) (by simpa using hr)
      rw [hC] at hA
      simp only [Arg.toMat] at hA ⊢
      subst hA
      rw [ih C hC, kron_hc]

/-- **C38 (traces).** The trace of a tensor product of square matrices is the product of the traces. -/
theorem C38_trace (xs : List Mat) (hsq : ∀ X ∈ xs, X.rows = X.cols) (A : Mat) (hA : tensorProd (xs.map .mat) = some A) :
    trace A = (xs.map trace).prod := by
  induction xs generalizing A with
  | nil => simp [tensorProd] at hA
  | cons p r ih =>
    rw [List.map_cons, tensorProd_cons, Option.some.injEq] at hA
    by_cases hr : r = []
    · subst hr
      simp only [List.map_nil, tensorProd, Arg.toMat] at hA
      simp [hA]
    · obtain ⟨C, hC⟩ := tensorProd_ne_none (xs := r.map Arg.mat) (by simpa using hr)
      rw [hC] at hA
      simp only [Arg.toMat] at hA
      subst hA
      have hr' := fun q hq => hsq q (List.mem_cons_of_mem _ hq)
      rw [List.map_cons, List.prod_cons, ← ih hr' C hC, trace_kron _ _ (hsq p List.mem_cons_self)]
      rw [(C38_shape _ _ hC).1, (C38_shape _ _ hC).2]
      simp only [List.map_map, Function.comp_def, Arg.toMat]
      congr 1
      exact List.map_congr_left hr'

/-- **C38 (inner products, norms).** The inner product of tensor products of kets is the product of the inner products;
hence the (squared) norm of a tensor product is the product of the (squared) norms. -/
theorem C38_innerProd (ps : List (Mat × Mat)) (hps : ∀ p ∈ ps, p.1.rows = p.2.rows ∧ p.1.cols = 1 ∧ p.2.cols = 1)
    (A B : Mat) (hA : tensorProd (ps.map fun p => .mat p.1) = some A)
    (hB : tensorProd (ps.map fun p => .mat p.2) = some B) :
    innerProd A (some B) = (ps.map fun p => innerProd p.1 (some p.2)).prod := by
  have h1 : tensorProd ((ps.map fun p => (hc p.2, p.1)).map fun p => .mat p.1) = some (hc B) := by
    have := C38_hc (ps.map fun p => p.2) B (by simpa [List.map_map, Function.comp_def] using hB)
    simpa [List.map_map, Function.comp_def] using this
  have h2 : tensorProd ((ps.map fun p => (hc p.2, p.1)).map fun p => .mat p.2) = some A := by
    simpa [List.map_map, Function.comp_def] using hA
  have h3 := C38_mixed_product _ (by
    intro p hp
    obtain ⟨q, hq, rfl⟩ := List.mem_map.mp hp
    exact (hps q hq).1.symm) _ _ h1 h2
  have h4 := C38_trace (ps.map fun p => mul (hc p.2) p.1) (by
    intro X hX
    obtain ⟨q, hq, rfl⟩ := List.mem_map.mp hX
    simp [mul, hc, (hps q hq).2.1, (hps q hq).2.2]) _ (by
      rw [List.map_map] at h3
      rw [List.map_map]; exact h3)
  simp only [innerProd, Option.getD_some, h4, List.map_map, Function.comp_def]

/-- The (squared) norm of a tensor product of kets is the product of the squared norms. -/
theorem C38_norm (ks : List Mat) (hks : ∀ k ∈ ks, k.cols = 1) (A : Mat) (hA : tensorProd (ks.map .mat) = some A) :
    innerProd A = (ks.map fun k => innerProd k).prod := by
  have := C38_innerProd (ks.map fun k => (k, k)) (by
    intro p hp
    obtain ⟨q, hq, rfl⟩ := List.mem_map.mp hp
    exact ⟨rfl, hks q hq, hks q hq⟩) A A (by simpa [List.map_map, Function.comp_def] using hA)
    (by simpa [List.map_map, Function.comp_def] using hA)
  simpa [List.map_map, Function.comp_def, innerProd] using this

/-- **C38 (integers).** An integer argument is the identity of that size; integers only give the identity of the product. -/
theorem C38_int (xs ys : List Arg) (n : ℕ) :
    tensorProd (xs ++ .int n :: ys) = tensorProd (xs ++ .mat (ident n) :: ys) := by
  induction xs with
  | nil => simp [tensorProd_cons, Arg.toMat]
  | cons a r ih => rw [List.cons_append, List.cons_append, tensorProd_cons, tensorProd_cons, ih]

theorem C38_ints (ns : List ℕ) (h : ns ≠ []) : ∃ A, tensorProd (ns.map .int) = some A ∧ Same A (ident ns.prod) := by
  induction ns with
  | nil => exact absurd rfl h
  | cons n r ih =>
    rw [List.map_cons, tensorProd_cons]
    by_cases hr : r = []
    · subst hr; exact ⟨ident n, rfl, by simpa using Same.refl _⟩
    · obtain ⟨A, hA, hs⟩ := ih hr
      refine ⟨_, rfl, ?_⟩
      rw [hA]
      simp only [Arg.toMat, List.prod_cons]
      exact ((Same.refl _).kron hs).trans (kron_ident _ _)

/-- Integer arguments `1` can be dropped or added anywhere. -/
theorem C38_one (xs : List Arg) (A : Mat) (h : tensorProd xs = some A) :
    (∃ B, tensorProd (.int 1 :: xs) = some B ∧ Same B A) ∧ (∃ B, tensorProd (xs ++ [.int 1]) = some B ∧ Same B A) := by
  constructor
  · refine ⟨_, tensorProd_cons _ _, ?_⟩
    rw [h]; exact kron_ident_one_left A
  · have := C38_grouping xs [.int 1] A (ident 1) h (by simp [tensorProd])
    exact ⟨_, this.1.trans this.2, kron_ident_one_right A⟩

/-- Non-trivial instance: three different factors, one of them an integer: the shape is `12 x 6` and row 5 = (1,0,1) in mixed
radix 3,2,2 meets column 3 = (1,1,0) in mixed radix 3,2,1. -/
def sx : Mat := ⟨2, 2, fun i j => if i = j then 0 else 1⟩
def k2 : Mat := ⟨2, 1, fun i _ => if i = 0 then 3 else Complex.I⟩
example : ∃ A, tensorProd [.int 3, .mat sx, .mat k2] = some A ∧ A.rows = 12 ∧ A.cols = 6 ∧
    A.entry 5 3 = Complex.I ∧ A.entry 5 2 = 0 ∧ A.entry 4 3 = 3 := by
  refine ⟨_, by simp [tensorProd_cons, Arg.toMat, tensorProd]; rfl, ?_, ?_, ?_, ?_, ?_⟩ <;>
    norm_num [kron, ident, sx, k2]
example : innerProd k2 = 10 := by
  simp only [innerProd, Option.getD_none, trace, mul, hc, k2]
  norm_num [Finset.sum_range_succ, map_ofNat]
example : ∃ A, tensorProd [.mat k2, .mat k2, .mat k2] = some A ∧ innerProd A = 1000 := by
  obtain ⟨A, hA⟩ := tensorProd_ne_none (xs := [k2, k2, k2].map .mat) (by simp)
  refine ⟨A, hA, ?_⟩
  rw [C38_norm [k2, k2, k2] (by simp [k2]) A hA]
  have : innerProd k2 = 10 := by
    simp only [innerProd, Option.getD_none, trace, mul, hc, k2]
    norm_num [Finset.sum_range_succ, map_ofNat]
  simp [this]; norm_num

/-! ## `compositeOp` -/

/-- `compositeOp(op, dimB, dimA)` is `identity(dimB) x op x identity(dimA)` for all positive dimensions: skipping the
dimensions equal to one is harmless. -/
theorem compositeOp_same (op : Mat) (dimB dimA : ℕ) (hB : 0 < dimB) (hA : 0 < dimA) :
    ∃ C, compositeOp op dimB dimA = some C ∧ Same C (kron (kron (ident dimB) op) (ident dimA)) := by
  have key : ∀ n : ℕ, 0 < n → ¬ n > 1 → n = 1 := fun n h1 h2 => by omega
  by_cases h1 : dimB > 1 <;> by_cases h2 : dimA > 1
  · refine ⟨_, by simp [compositeOp, h1, h2, tensorProd_cons]; rfl, ?_⟩
    rw [kron_assoc]; simp [tensorProd, Arg.toMat]; exact Same.refl _
  · obtain rfl := key dimA hA h2
    refine ⟨_, by simp [compositeOp, h1, tensorProd_cons]; rfl, ?_⟩
    simp [tensorProd, Arg.toMat]
    exact (kron_ident_one_right _).symm
  · obtain rfl := key dimB hB h1
    refine ⟨_, by simp [compositeOp, h2, tensorProd_cons]; rfl, ?_⟩
    simp [tensorProd, Arg.toMat]
    exact (kron_ident_one_left _).symm.kron (Same.refl _)
  · obtain rfl := key dimB hB h1
    obtain rfl := key dimA hA h2
    refine ⟨_, by simp [compositeOp, tensorProd_cons]; rfl, ?_⟩
    simp [tensorProd, Arg.toMat]
    exact ((kron_ident_one_left _).trans (Same.refl _)).symm.trans (kron_ident_one_right _).symm

end Verif.NMat
