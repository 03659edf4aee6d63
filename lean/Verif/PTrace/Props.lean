import Verif.PTrace.Core
import Mathlib.Algebra.Order.BigOperators.Group.Finset
import Mathlib.Data.Complex.BigOperators

/-!
# C45: partial trace
-/
namespace Verif.PTrace
open Verif.NMat Finset

/-! ## Algebra of `PTn` -/

theorem PTn_congr (ms : List (Bool × ℕ)) (f g : ℕ → ℕ → ℂ) (r c : ℕ) (hr : r < (keptD ms).prod) (hc : c < (keptD ms).prod)
    (h : ∀ i < (allD ms).prod, ∀ j < (allD ms).prod, f i j = g i j) : PTn ms f r c = PTn ms g r c := by
  induction ms generalizing f g r c with
  | nil => exact h 0 (by simp [allD]) 0 (by simp [allD])
  | cons p ms ih =>
    obtain ⟨b, d⟩ := p
    have bound : ∀ v a, v < d → a < (allD ms).prod → v * (allD ms).prod + a < (allD ((b, d) :: ms)).prod := by
      intro v a hv ha
      rw [allD_cons, List.prod_cons]
      calc v * (allD ms).prod + a < v * (allD ms).prod + (allD ms).prod := by omega
        _ = (v + 1) * (allD ms).prod := by ring
        _ ≤ d * (allD ms).prod := Nat.mul_le_mul_right _ hv
    cases b with
    | true =>
      simp only [keptD_true, List.prod_cons] at hr hc
      have hK : 0 < (keptD ms).prod := Nat.pos_of_ne_zero (by rintro h0; simp [h0] at hr)
      simp only [PTn]
      apply ih _ _ _ _ (Nat.mod_lt _ hK) (Nat.mod_lt _ hK)
      intro i hi j hj
      apply h
      · exact bound _ _ (Nat.div_lt_of_lt_mul (by rwa [Nat.mul_comm])) hi
      · exact bound _ _ (Nat.div_lt_of_lt_mul (by rwa [Nat.mul_comm])) hj
    | false =>
      rw [keptD_false] at hr hc
      simp only [PTn]
      apply sum_congr rfl
      intro v hv
      apply ih _ _ _ _ hr hc
      intro i hi j hj
      exact h _ (bound _ _ (mem_range.mp hv) hi) _ (bound _ _ (mem_range.mp hv) hj)

theorem PTn_trace (ms : List (Bool × ℕ)) (f : ℕ → ℕ → ℂ) :
    ∑ r ∈ range (keptD ms).prod, PTn ms f r r = ∑ i ∈ range (allD ms).prod, f i i := by
  induction ms generalizing f with
  | nil => simp [keptD, allD, PTn]
  | cons p ms ih =>
    obtain ⟨b, d⟩ := p
    have split : ∑ i ∈ range (d * (allD ms).prod), f i i =
        ∑ v ∈ range d, ∑ a ∈ range (allD ms).prod, f (v * (allD ms).prod + a) (v * (allD ms).prod + a) := by
      rw [← sum_range_divMod d (allD ms).prod (fun v a => f (v * (allD ms).prod + a) (v * (allD ms).prod + a))]
      apply sum_congr rfl
      intro i _
      rw [Nat.mul_comm, Nat.div_add_mod]
    cases b with
    | true =>
      simp only [keptD_true, allD_cons, List.prod_cons, PTn]
      rw [split, sum_range_divMod d (keptD ms).prod (fun v a =>
        PTn ms (fun x y => f (v * (allD ms).prod + x) (v * (allD ms).prod + y)) a a)]
      exact sum_congr rfl fun v _ => ih _
    | false =>
      simp only [keptD_false, allD_cons, List.prod_cons, PTn]
      rw [split, sum_comm]
      exact sum_congr rfl fun v _ => ih (fun a b => f (v * (allD ms).prod + a) (v * (allD ms).prod + b))

theorem PTn_conj (ms : List (Bool × ℕ)) (f : ℕ → ℕ → ℂ) (r c : ℕ) :
    (starRingEnd ℂ) (PTn ms f c r) = PTn ms (fun i j => (starRingEnd ℂ) (f j i)) r c := by
  induction ms generalizing f r c with
  | nil => rfl
  | cons p ms ih =>
    obtain ⟨b, d⟩ := p
    cases b with
    | true => simp only [PTn]; rw [ih]
    | false =>
      simp only [PTn, map_sum]
      exact sum_congr rfl fun v _ => ih _ _ _

theorem PTn_linear (ms : List (Bool × ℕ)) (x y : ℂ) (f g : ℕ → ℕ → ℂ) (r c : ℕ) :
    PTn ms (fun i j => x * f i j + y * g i j) r c = x * PTn ms f r c + y * PTn ms g r c := by
  induction ms generalizing f g r c with
  | nil => rfl
  | cons p ms ih =>
    obtain ⟨b, d⟩ := p
    cases b with
    | true => simp only [PTn]; rw [ih]
    | false => simp only [PTn, ih, sum_add_distrib, mul_sum]

/-- Where the digits `r` of the kept and `t` of the traced subsystems end up. -/
def merge : List (Bool × ℕ) → ℕ → ℕ → ℕ
  | [], _, _ => 0
  | (true, _) :: ms, r, t => r / (keptD ms).prod * (allD ms).prod + merge ms (r % (keptD ms).prod) t
  | (false, _) :: ms, r, t => t / (tracedD ms).prod * (allD ms).prod + merge ms r (t % (tracedD ms).prod)

theorem PTn_eq_sum (ms : List (Bool × ℕ)) (f : ℕ → ℕ → ℂ) (r c : ℕ) :
    PTn ms f r c = ∑ t ∈ range (tracedD ms).prod, f (merge ms r t) (merge ms c t) := by
  induction ms generalizing f r c with
  | nil => simp [PTn, tracedD, merge]
  | cons p ms ih =>
    obtain ⟨b, d⟩ := p
    cases b with
    | true => simp only [PTn, tracedD_true, merge]; rw [ih]
    | false =>
      simp only [PTn, tracedD_false, merge, List.prod_cons]
      rw [sum_range_divMod d (tracedD ms).prod (fun v t => f (v * (allD ms).prod + merge ms r t)
        (v * (allD ms).prod + merge ms c t))]
      exact sum_congr rfl fun v _ => ih (fun a b => f (v * (allD ms).prod + a) (v * (allD ms).prod + b)) _ _

theorem merge_lt (ms : List (Bool × ℕ)) (r t : ℕ) (hr : r < (keptD ms).prod) (ht : t < (tracedD ms).prod) :
    merge ms r t < (allD ms).prod := by
  induction ms generalizing r t with
  | nil => simp [merge, allD]
  | cons p ms ih =>
    obtain ⟨b, d⟩ := p
    have bound : ∀ v a, v < d → a < (allD ms).prod → v * (allD ms).prod + a < (allD ((b, d) :: ms)).prod := by
      intro v a hv ha
      rw [allD_cons, List.prod_cons]
      calc v * (allD ms).prod + a < v * (allD ms).prod + (allD ms).prod := by omega
        _ = (v + 1) * (allD ms).prod := by ring
        _ ≤ d * (allD ms).prod := Nat.mul_le_mul_right _ hv
    cases b with
    | true =>
      simp only [keptD_true, tracedD_true, List.prod_cons] at hr ht
      have hK : 0 < (keptD ms).prod := Nat.pos_of_ne_zero (by rintro h0; simp [h0] at hr)
      exact bound _ _ (Nat.div_lt_of_lt_mul (by rwa [Nat.mul_comm])) (ih _ _ (Nat.mod_lt _ hK) ht)
    | false =>
      simp only [keptD_false, tracedD_false, List.prod_cons] at hr ht
      have hK : 0 < (tracedD ms).prod := Nat.pos_of_ne_zero (by rintro h0; simp [h0] at ht)
      exact bound _ _ (Nat.div_lt_of_lt_mul (by rwa [Nat.mul_comm])) (ih _ _ hr (Nat.mod_lt _ hK))

/-- The operator acting as `o` on the kept subsystems and as the identity on the traced ones. -/
def ext : List (Bool × ℕ) → (ℕ → ℕ → ℂ) → ℕ → ℕ → ℂ
  | [], o, _, _ => o 0 0
  | (true, _) :: ms, o, i, j =>
    let K := (keptD ms).prod
    let D := (allD ms).prod
    ext ms (fun a b => o (i / D * K + a) (j / D * K + b)) (i % D) (j % D)
  | (false, _) :: ms, o, i, j =>
    let D := (allD ms).prod
    if i / D = j / D then ext ms o (i % D) (j % D) else 0

theorem sum_split (d D : ℕ) (g : ℕ → ℂ) : ∑ i ∈ range (d * D), g i = ∑ v ∈ range d, ∑ a ∈ range D, g (v * D + a) := by
  rw [← sum_range_divMod d D (fun v a => g (v * D + a))]
  apply sum_congr rfl
  intro i _
  rw [Nat.mul_comm, Nat.div_add_mod]

theorem divMod_block (D v a : ℕ) (ha : a < D) : (v * D + a) / D = v ∧ (v * D + a) % D = a := by
  constructor
  · rw [Nat.add_comm, Nat.add_mul_div_right _ _ (by omega), Nat.div_eq_of_lt ha, Nat.zero_add]
  · rw [Nat.add_comm, Nat.add_mul_mod_self_right, Nat.mod_eq_of_lt ha]

theorem PTn_dual (ms : List (Bool × ℕ)) (f o : ℕ → ℕ → ℂ) :
    ∑ r ∈ range (keptD ms).prod, ∑ c ∈ range (keptD ms).prod, PTn ms f r c * o c r =
    ∑ i ∈ range (allD ms).prod, ∑ j ∈ range (allD ms).prod, f i j * ext ms o j i := by
  induction ms generalizing f o with
  | nil => simp [keptD, allD, PTn, ext]
  | cons p ms ih =>
    obtain ⟨b, d⟩ := p
    set K := (keptD ms).prod with hK
    set D := (allD ms).prod with hD
    cases b with
    | true =>
      simp only [keptD_true, allD_cons, List.prod_cons, PTn, ext]
      rw [← hK, ← hD]
      rw [sum_split, sum_split]
      simp only [sum_split d K, sum_split d D]
      have L : ∀ v, ∑ a ∈ range K, ∑ w ∈ range d, ∑ b ∈ range K,
          PTn ms (fun x y => f ((v * K + a) / K * D + x) ((w * K + b) / K * D + y)) ((v * K + a) % K) ((w * K + b) % K) *
            o (w * K + b) (v * K + a) =
          ∑ w ∈ range d, ∑ a ∈ range K, ∑ b ∈ range K,
            PTn ms (fun x y => f (v * D + x) (w * D + y)) a b * o (w * K + b) (v * K + a) := by
        intro v
        rw [sum_comm]
        apply sum_congr rfl; intro w _
        apply sum_congr rfl; intro a ha
        apply sum_congr rfl; intro b hb
        rw [(divMod_block K v a (mem_range.mp ha)).1, (divMod_block K v a (mem_range.mp ha)).2,
          (divMod_block K w b (mem_range.mp hb)).1, (divMod_block K w b (mem_range.mp hb)).2]
      have Rr : ∀ v, ∑ a ∈ range D, ∑ w ∈ range d, ∑ b ∈ range D, f (v * D + a) (w * D + b) *
            ext ms (fun x y => o ((w * D + b) / D * K + x) ((v * D + a) / D * K + y)) ((w * D + b) % D) ((v * D + a) % D) =
          ∑ w ∈ range d, ∑ a ∈ range D, ∑ b ∈ range D, f (v * D + a) (w * D + b) *
            ext ms (fun x y => o (w * K + x) (v * K + y)) b a := by
        intro v
        rw [sum_comm]
        apply sum_congr rfl; intro w _
        apply sum_congr rfl; intro a ha
        apply sum_congr rfl; intro b hb
        rw [(divMod_block D v a (mem_range.mp ha)).1, (divMod_block D v a (mem_range.mp ha)).2,
          (divMod_block D w b (mem_range.mp hb)).1, (divMod_block D w b (mem_range.mp hb)).2]
      simp only [L, Rr]
      apply sum_congr rfl; intro v _
      apply sum_congr rfl; intro w _
      exact ih (fun x y => f (v * D + x) (w * D + y)) (fun x y => o (w * K + x) (v * K + y))
    | false =>
      simp only [keptD_false, allD_cons, List.prod_cons, PTn, ext]
      rw [← hK, ← hD]
      rw [sum_split]
      simp only [sum_split d D]
      have Rr : ∀ v ∈ range d, ∑ a ∈ range D, ∑ w ∈ range d, ∑ b ∈ range D, f (v * D + a) (w * D + b) *
            (if (w * D + b) / D = (v * D + a) / D then ext ms o ((w * D + b) % D) ((v * D + a) % D) else 0) =
          ∑ a ∈ range D, ∑ b ∈ range D, f (v * D + a) (v * D + b) * ext ms o b a := by
        intro v hv
        apply sum_congr rfl; intro a ha
        rw [sum_eq_single v]
        · apply sum_congr rfl; intro b hb
          rw [(divMod_block D v a (mem_range.mp ha)).1, (divMod_block D v a (mem_range.mp ha)).2,
            (divMod_block D v b (mem_range.mp hb)).1, (divMod_block D v b (mem_range.mp hb)).2, if_pos rfl]
        · intro w _ hw
          apply sum_eq_zero; intro b hb
          rw [(divMod_block D v a (mem_range.mp ha)).1, (divMod_block D w b (mem_range.mp hb)).1, if_neg hw, mul_zero]
        · intro h; exact absurd hv h
      rw [sum_congr rfl Rr]
      simp only [sum_mul]
      have : ∑ r ∈ range K, ∑ c ∈ range K, ∑ v ∈ range d, PTn ms (fun a b => f (v * D + a) (v * D + b)) r c * o c r =
          ∑ v ∈ range d, ∑ r ∈ range K, ∑ c ∈ range K, PTn ms (fun a b => f (v * D + a) (v * D + b)) r c * o c r := by
        rw [sum_congr rfl fun r _ => sum_comm, sum_comm]
      rw [this]
      exact sum_congr rfl fun v _ => ih _ _

/-! ## Tensor products -/

/-- Tensor product of a list of matrices. -/
def tens : List Mat → Mat
  | [] => ident 1
  | A :: As => kron A (tens As)

theorem tensorProd_tens (As : List Mat) (T : Mat) (h : tensorProd (As.map .mat) = some T) : Same T (tens As) := by
  induction As generalizing T with
  | nil => simp [tensorProd] at h
  | cons A As ih =>
    rw [List.map_cons, tensorProd_cons, Option.some.injEq] at h
    by_cases hr : As = []
    · subst hr
      simp only [List.map_nil, tensorProd, Arg.toMat] at h
      subst h
      exact (kron_ident_one_right _).symm
    · obtain ⟨C, hC⟩ := tensorProd_ne_none (xs := As.map Arg.mat) (by simpa using hr)
      rw [hC] at h
      simp only [Arg.toMat] at h
      subst h
      exact (Same.refl _).kron (ih C hC)

theorem tens_shape (As : List Mat) : (tens As).rows = (As.map Mat.rows).prod ∧ (tens As).cols = (As.map Mat.cols).prod := by
  induction As with
  | nil => simp [tens, ident]
  | cons A As ih => simp [tens, kron, ih.1, ih.2]

/-- Sizes of flagged square matrices. -/
def szs (ps : List (Bool × Mat)) : List (Bool × ℕ) := ps.map fun p => (p.1, p.2.rows)

theorem allD_szs (ps : List (Bool × Mat)) : allD (szs ps) = ps.map fun p => p.2.rows := by
  simp [allD, szs, Function.comp_def]
theorem keptD_szs (ps : List (Bool × Mat)) : keptD (szs ps) = (ps.filter Prod.fst).map fun p => p.2.rows := by
  simp [keptD, szs, List.filter_map, Function.comp_def]

theorem tens_rows_all (ps : List (Bool × Mat)) : (tens (ps.map Prod.snd)).rows = (allD (szs ps)).prod := by
  rw [(tens_shape _).1, allD_szs, List.map_map]; rfl
theorem tens_rows_kept (ps : List (Bool × Mat)) : (tens ((ps.filter Prod.fst).map Prod.snd)).rows = (keptD (szs ps)).prod := by
  rw [(tens_shape _).1, keptD_szs, List.map_map]; rfl
theorem tens_cols_all (ps : List (Bool × Mat)) (h : ∀ p ∈ ps, p.2.rows = p.2.cols) :
    (tens (ps.map Prod.snd)).cols = (allD (szs ps)).prod := by
  rw [(tens_shape _).2, allD_szs, List.map_map]
  congr 1
  exact List.map_congr_left fun p hp => (h p hp).symm
theorem tens_cols_kept (ps : List (Bool × Mat)) (h : ∀ p ∈ ps, p.2.rows = p.2.cols) :
    (tens ((ps.filter Prod.fst).map Prod.snd)).cols = (keptD (szs ps)).prod := by
  rw [(tens_shape _).2, keptD_szs, List.map_map]
  congr 1
  exact List.map_congr_left fun p hp => (h p (List.mem_of_mem_filter hp)).symm

theorem PTn_smul (ms : List (Bool × ℕ)) (x : ℂ) (f : ℕ → ℕ → ℂ) (r c : ℕ) :
    PTn ms (fun i j => x * f i j) r c = x * PTn ms f r c := by
  have := PTn_linear ms x 0 f f r c
  simpa using this

theorem PTn_tens (ps : List (Bool × Mat)) (h : ∀ p ∈ ps, p.2.rows = p.2.cols) (r c : ℕ) (hr : r < (keptD (szs ps)).prod)
    (hc : c < (keptD (szs ps)).prod) :
    PTn (szs ps) (tens (ps.map Prod.snd)).entry r c =
      ((ps.filter fun p => !p.1).map fun p => trace p.2).prod * (tens ((ps.filter Prod.fst).map Prod.snd)).entry r c := by
  induction ps generalizing r c with
  | nil =>
    have hr' : r = 0 := by simpa [szs, keptD] using hr
    have hc' : c = 0 := by simpa [szs, keptD] using hc
    subst hr'; subst hc'
    simp [szs, PTn]
  | cons p ps ih =>
    have h' := fun q hq => h q (List.mem_cons_of_mem p hq)
    obtain ⟨b, A⟩ := p
    have hsq : A.rows = A.cols := h (b, A) List.mem_cons_self
    have hDr := tens_rows_all ps
    have hDc := tens_cols_all ps h'
    have hKr := tens_rows_kept ps
    have hKc := tens_cols_kept ps h'
    set D := (allD (szs ps)).prod with hD
    set K := (keptD (szs ps)).prod with hK
    have hszs : szs ((b, A) :: ps) = (b, A.rows) :: szs ps := rfl
    rw [hszs] at hr hc ⊢
    cases b with
    | true =>
      simp only [keptD_true, List.prod_cons, ← hK] at hr hc
      have hK0 : 0 < K := Nat.pos_of_ne_zero (by rintro h0; simp [h0] at hr)
      simp only [PTn, ← hK, ← hD]
      rw [PTn_congr (szs ps) _ (fun i j => A.entry (r / K) (c / K) * (tens (ps.map Prod.snd)).entry i j) _ _ (Nat.mod_lt _ hK0)
        (Nat.mod_lt _ hK0), PTn_smul, ih h' _ _ (Nat.mod_lt _ hK0) (Nat.mod_lt _ hK0)]
      · have e : List.filter Prod.fst ((true, A) :: ps) = (true, A) :: ps.filter Prod.fst := rfl
        have e2 : List.filter (fun p : Bool × Mat => !p.1) ((true, A) :: ps) = ps.filter fun p => !p.1 := rfl
        rw [e, e2, List.map_cons, tens, kron]
        simp only [hKr, hKc]
        ring
      · intro i hi j hj
        rw [← hD] at hi hj
        simp only [List.map_cons, tens, kron, hDr, hDc]
        rw [(divMod_block D _ i hi).1, (divMod_block D _ i hi).2, (divMod_block D _ j hj).1, (divMod_block D _ j hj).2]
    | false =>
      simp only [keptD_false, ← hK] at hr hc
      simp only [PTn, ← hD]
      have e : List.filter Prod.fst ((false, A) :: ps) = ps.filter Prod.fst := rfl
      have e2 : List.filter (fun p : Bool × Mat => !p.1) ((false, A) :: ps) = (false, A) :: ps.filter fun p => !p.1 := rfl
      rw [e, e2]
      simp only [List.map_cons, List.prod_cons]
      rw [mul_assoc, ← ih h' r c hr hc]
      have ht : trace A = ∑ v ∈ range A.rows, A.entry v v := by rw [trace, ← hsq, Nat.min_self]
      simp only [ht, sum_mul]
      apply sum_congr rfl
      intro v _
      rw [← PTn_smul]
      apply PTn_congr _ _ _ _ _ hr hc
      intro i hi j hj
      rw [← hD] at hi hj
      simp only [tens, kron, hDr, hDc]
      rw [(divMod_block D _ i hi).1, (divMod_block D _ i hi).2, (divMod_block D _ j hj).1, (divMod_block D _ j hj).2]

theorem ext_congr (ms : List (Bool × ℕ)) (f g : ℕ → ℕ → ℂ) (i j : ℕ) (hi : i < (allD ms).prod) (hj : j < (allD ms).prod)
    (h : ∀ r < (keptD ms).prod, ∀ c < (keptD ms).prod, f r c = g r c) : ext ms f i j = ext ms g i j := by
  induction ms generalizing f g i j with
  | nil => exact h 0 (by simp [keptD]) 0 (by simp [keptD])
  | cons p ms ih =>
    obtain ⟨b, d⟩ := p
    simp only [allD_cons, List.prod_cons] at hi hj
    have hD : 0 < (allD ms).prod := Nat.pos_of_ne_zero (by rintro h0; simp [h0] at hi)
    cases b with
    | true =>
      simp only [ext]
      apply ih _ _ _ _ (Nat.mod_lt _ hD) (Nat.mod_lt _ hD)
      have bound : ∀ v a, v < d → a < (keptD ms).prod → v * (keptD ms).prod + a < (keptD ((true, d) :: ms)).prod := by
        intro v a hv ha
        rw [keptD_true, List.prod_cons]
        calc v * (keptD ms).prod + a < v * (keptD ms).prod + (keptD ms).prod := by omega
          _ = (v + 1) * (keptD ms).prod := by ring
          _ ≤ d * (keptD ms).prod := Nat.mul_le_mul_right _ hv
      intro r hr c hc
      exact h _ (bound _ _ (Nat.div_lt_of_lt_mul (by rwa [Nat.mul_comm])) hr) _
        (bound _ _ (Nat.div_lt_of_lt_mul (by rwa [Nat.mul_comm])) hc)
    | false =>
      simp only [ext]
      split_ifs
      · exact ih _ _ _ _ (Nat.mod_lt _ hD) (Nat.mod_lt _ hD) h
      · rfl

theorem ext_smul (ms : List (Bool × ℕ)) (x : ℂ) (f : ℕ → ℕ → ℂ) (i j : ℕ) :
    ext ms (fun a b => x * f a b) i j = x * ext ms f i j := by
  induction ms generalizing f i j with
  | nil => rfl
  | cons p ms ih =>
    obtain ⟨b, d⟩ := p
    cases b with
    | true => simp only [ext]; rw [ih]
    | false => simp only [ext]; split_ifs <;> simp [ih]

/-- `O` on the kept subsystems, identity on the others, as matrices. -/
def padded (ps : List (Bool × Mat)) : List Mat := ps.map fun p => if p.1 then p.2 else ident p.2.rows

theorem ext_tens (ps : List (Bool × Mat)) (h : ∀ p ∈ ps, p.2.rows = p.2.cols) (i j : ℕ) (hi : i < (allD (szs ps)).prod)
    (hj : j < (allD (szs ps)).prod) :
    ext (szs ps) (tens ((ps.filter Prod.fst).map Prod.snd)).entry i j = (tens (padded ps)).entry i j := by
  induction ps generalizing i j with
  | nil =>
    have hi' : i = 0 := by simpa [szs, allD] using hi
    have hj' : j = 0 := by simpa [szs, allD] using hj
    subst hi'; subst hj'
    simp [szs, ext, padded, tens]
  | cons p ps ih =>
    have h' := fun q hq => h q (List.mem_cons_of_mem p hq)
    obtain ⟨b, A⟩ := p
    have hsq : A.rows = A.cols := h (b, A) List.mem_cons_self
    have hPr : (tens (padded ps)).rows = (allD (szs ps)).prod := by
      rw [(tens_shape _).1, allD_szs, padded, List.map_map]
      congr 1
      apply List.map_congr_left; intro p _; simp only [Function.comp]; split_ifs <;> simp [ident]
    have hPc : (tens (padded ps)).cols = (allD (szs ps)).prod := by
      rw [(tens_shape _).2, allD_szs, padded, List.map_map]
      congr 1
      apply List.map_congr_left; intro p hp; simp only [Function.comp]; split_ifs
      · exact (h' p hp).symm
      · simp [ident]
    have hKr := tens_rows_kept ps
    have hKc := tens_cols_kept ps h'
    set D := (allD (szs ps)).prod with hD
    set K := (keptD (szs ps)).prod with hK
    have hszs : szs ((b, A) :: ps) = (b, A.rows) :: szs ps := rfl
    rw [hszs] at hi hj ⊢
    simp only [allD_cons, List.prod_cons, ← hD] at hi hj
    have hD0 : 0 < D := Nat.pos_of_ne_zero (by rintro h0; simp [h0] at hi)
    cases b with
    | true =>
      have e : List.filter Prod.fst ((true, A) :: ps) = (true, A) :: ps.filter Prod.fst := rfl
      simp only [ext, ← hK, ← hD, e, List.map_cons]
      rw [ext_congr (szs ps) _ (fun a b => A.entry (i / D) (j / D) * (tens ((ps.filter Prod.fst).map Prod.snd)).entry a b) _ _
        (Nat.mod_lt _ hD0) (Nat.mod_lt _ hD0), ext_smul, ih h' _ _ (Nat.mod_lt _ hD0) (Nat.mod_lt _ hD0)]
      · simp only [padded, List.map_cons, if_true, tens, kron]
        rw [← padded, hPr, hPc]
      · intro r hr c hc
        rw [← hK] at hr hc
        simp only [tens, kron, hKr, hKc]
        rw [(divMod_block K _ r hr).1, (divMod_block K _ r hr).2, (divMod_block K _ c hc).1, (divMod_block K _ c hc).2]
    | false =>
      have e : List.filter Prod.fst ((false, A) :: ps) = ps.filter Prod.fst := rfl
      simp only [ext, ← hD, e]
      rw [ih h' _ _ (Nat.mod_lt _ hD0) (Nat.mod_lt _ hD0)]
      simp only [padded, List.map_cons, Bool.false_eq_true, if_false, tens, kron]
      rw [← padded, hPr, hPc, ident]
      simp only
      split_ifs <;> simp

/-! ## The properties -/

/-- A square matrix of the size of the composite space. -/
structure OnSpace (rho : Mat) (dims : List ℕ) : Prop where
  rows : rho.rows = dims.prod
  cols : rho.cols = dims.prod

theorem OnSpace.square {rho : Mat} {dims : List ℕ} (h : OnSpace rho dims) :
    rho = if rho.rows ≠ rho.cols then mul rho (hc rho) else rho := by
  rw [if_neg]; rw [h.rows, h.cols]; simp

/-- The result for a matrix, in closed form. -/
theorem partialTrace_mat (keep : List ℤ) (dims : List ℕ) (rho : Mat) (hk : ValidKeep keep dims.length)
    (h : OnSpace rho dims) : ∃ R, partialTrace keep dims rho = some R ∧
      Same R ⟨(keptD (flags keep dims)).prod, (keptD (flags keep dims)).prod, PTn (flags keep dims) rho.entry⟩ :=
  partialTrace_eq keep dims rho rho hk h.square h.rows h.cols

/-- **C45 (defined).** For distinct valid indices the partial trace of a matrix of the right size exists and is a square matrix
whose size is the product of the kept dimensions. -/
theorem C45_defined (keep : List ℤ) (dims : List ℕ) (rho : Mat) (hk : ValidKeep keep dims.length) (h : OnSpace rho dims) :
    ∃ R, partialTrace keep dims rho = some R ∧ R.rows = (keep.map fun k => dims.getD k.toNat 0).prod ∧ R.cols = R.rows := by
  obtain ⟨R, hR, h1, h2, _⟩ := partialTrace_mat keep dims rho hk h
  exact ⟨R, hR, by rw [h1, nKeep_eq keep dims hk], by rw [h1, h2]⟩

/-- **C45 (trace).** The partial trace has the same trace. -/
theorem C45_trace (keep : List ℤ) (dims : List ℕ) (rho R : Mat) (hk : ValidKeep keep dims.length) (h : OnSpace rho dims)
    (hR : partialTrace keep dims rho = some R) : trace R = trace rho := by
  obtain ⟨R', hR', hs⟩ := partialTrace_mat keep dims rho hk h
  rw [hR] at hR'; cases hR'
  rw [hs.trace]
  simp only [trace, Nat.min_self, h.rows, h.cols]
  rw [PTn_trace, allD_flags]

/-- **C45 (Hermiticity).** The partial trace of a Hermitian matrix is Hermitian. -/
theorem C45_hermitian (keep : List ℤ) (dims : List ℕ) (rho R : Mat) (hk : ValidKeep keep dims.length) (h : OnSpace rho dims)
    (hR : partialTrace keep dims rho = some R) (hh : Same (hc rho) rho) : Same (hc R) R := by
  obtain ⟨R', hR', hs⟩ := partialTrace_mat keep dims rho hk h
  rw [hR] at hR'; cases hR'
  refine hs.hc.trans (Same.trans ?_ hs.symm)
  refine ⟨rfl, rfl, fun i hi j hj => ?_⟩
  simp only [hc] at hi hj ⊢
  rw [PTn_conj]
  apply PTn_congr _ _ _ _ _ hi hj
  intro a ha b hb
  rw [allD_flags] at ha hb
  exact hh.2.2 a (by simpa [hc, h.cols] using ha) b (by simpa [hc, h.rows] using hb)

/-- Positivity of a square matrix: `<w|A|w>` is a non-negative real number for every vector `w`. -/
def Positive (A : Mat) : Prop :=
  ∀ w : ℕ → ℂ, ∃ x : ℝ, 0 ≤ x ∧
    ∑ i ∈ range A.rows, ∑ j ∈ range A.cols, (starRingEnd ℂ) (w i) * A.entry i j * w j = (x : ℂ)

/-- **C45 (positivity).** The partial trace of a positive matrix is positive: reduced states are states. -/
theorem C45_positive (keep : List ℤ) (dims : List ℕ) (rho R : Mat) (hk : ValidKeep keep dims.length) (h : OnSpace rho dims)
    (hR : partialTrace keep dims rho = some R) (hp : Positive rho) : Positive R := by
  obtain ⟨R', hR', hs⟩ := partialTrace_mat keep dims rho hk h
  rw [hR] at hR'; cases hR'
  intro v
  set ms := flags keep dims with hms
  set K := (keptD ms).prod with hK
  have hall : (allD ms).prod = dims.prod := by rw [hms, allD_flags]
  have e1 : ∑ i ∈ range R.rows, ∑ j ∈ range R.cols, (starRingEnd ℂ) (v i) * R.entry i j * v j =
      ∑ t ∈ range (tracedD ms).prod, ∑ r ∈ range K, ∑ c ∈ range K,
        (starRingEnd ℂ) (v r) * rho.entry (merge ms r t) (merge ms c t) * v c := by
    rw [sum_comm (s := range (tracedD ms).prod)]
    have hRr : R.rows = K := hs.1
    have hRc : R.cols = K := hs.2.1
    rw [hRr, hRc]
    apply sum_congr rfl; intro r hr
    rw [sum_comm]
    apply sum_congr rfl; intro c hc
    rw [hs.2.2 r (by rw [hRr]; exact mem_range.mp hr) c (by rw [hRc]; exact mem_range.mp hc)]
    simp only [PTn_eq_sum, mul_sum, sum_mul]
  choose x hx0 hx using fun t : ℕ => hp fun i => ∑ r ∈ range K, if merge ms r t = i then v r else 0
  refine ⟨∑ t ∈ range (tracedD ms).prod, x t, sum_nonneg fun t _ => hx0 t, ?_⟩
  rw [e1, Complex.ofReal_sum]
  apply sum_congr rfl; intro t ht
  rw [← hx t, h.rows, h.cols]
  -- collapse the sums over `i` and `j`
  have col : ∀ g : ℕ → ℂ, ∑ j ∈ range dims.prod, g j * (∑ r ∈ range K, if merge ms r t = j then v r else 0) =
      ∑ r ∈ range K, g (merge ms r t) * v r := by
    intro g
    simp only [mul_sum]
    rw [sum_comm]
    apply sum_congr rfl; intro r hr
    rw [sum_eq_single (merge ms r t)]
    · simp
    · intro j _ hj; rw [if_neg (Ne.symm hj), mul_zero]
    · intro hn; exact absurd (mem_range.mpr (hall ▸ merge_lt ms r t (mem_range.mp hr) (mem_range.mp ht))) hn
  have colc : ∀ g : ℕ → ℂ, ∑ j ∈ range dims.prod, (starRingEnd ℂ) (∑ r ∈ range K, if merge ms r t = j then v r else 0) * g j =
      ∑ r ∈ range K, (starRingEnd ℂ) (v r) * g (merge ms r t) := by
    intro g
    have := congrArg (starRingEnd ℂ) (col fun j => (starRingEnd ℂ) (g j))
    simp only [map_sum, map_mul, Complex.conj_conj] at this
    simp only [map_sum]
    rw [← sum_congr rfl fun j _ => mul_comm _ _, this]
    exact sum_congr rfl fun j _ => mul_comm _ _
  symm
  calc ∑ i ∈ range dims.prod, ∑ j ∈ range dims.prod,
        (starRingEnd ℂ) (∑ r ∈ range K, if merge ms r t = i then v r else 0) * rho.entry i j *
          (∑ r ∈ range K, if merge ms r t = j then v r else 0)
      = ∑ i ∈ range dims.prod, (starRingEnd ℂ) (∑ r ∈ range K, if merge ms r t = i then v r else 0) *
          ∑ c ∈ range K, rho.entry i (merge ms c t) * v c := by
        apply sum_congr rfl; intro i _
        rw [← col fun j => rho.entry i j, mul_sum]
        exact sum_congr rfl fun j _ => mul_assoc _ _ _
    _ = ∑ r ∈ range K, (starRingEnd ℂ) (v r) * ∑ c ∈ range K, rho.entry (merge ms r t) (merge ms c t) * v c :=
        colc fun i => ∑ c ∈ range K, rho.entry i (merge ms c t) * v c
    _ = _ := by
        apply sum_congr rfl; intro r _
        rw [mul_sum]
        exact sum_congr rfl fun c _ => (mul_assoc _ _ _).symm

/-- **C45 (linearity).** -/
theorem C45_linear (keep : List ℤ) (dims : List ℕ) (x y : ℂ) (A B RA RB R : Mat) (hk : ValidKeep keep dims.length)
    (hA : OnSpace A dims) (hB : OnSpace B dims) (eA : partialTrace keep dims A = some RA)
    (eB : partialTrace keep dims B = some RB) (e : partialTrace keep dims (add (smul x A) (smul y B)) = some R) :
    Same R (add (smul x RA) (smul y RB)) := by
  obtain ⟨R1, h1, s1⟩ := partialTrace_mat keep dims A hk hA
  obtain ⟨R2, h2, s2⟩ := partialTrace_mat keep dims B hk hB
  obtain ⟨R3, h3, s3⟩ := partialTrace_mat keep dims (add (smul x A) (smul y B)) hk ⟨hA.rows, hA.cols⟩
  rw [eA] at h1; cases h1
  rw [eB] at h2; cases h2
  rw [e] at h3; cases h3
  refine s3.trans ⟨s1.1.symm, s1.2.1.symm, fun i hi j hj => ?_⟩
  simp only [add, smul] at hi hj ⊢
  rw [PTn_linear]
  rw [s1.2.2 i (by rw [s1.1]; exact hi) j (by rw [s1.2.1]; exact hj),
    s2.2.2 i (by rw [s2.1]; exact hi) j (by rw [s2.2.1]; exact hj)]

/-- The factors at the kept / traced positions, in the order of the positions. -/
def keptOf (keep : List ℤ) (As : List Mat) : List Mat := (As.zipIdx.filter fun p => decide ((p.2 : ℤ) ∈ keep)).map Prod.fst
def tracedOf (keep : List ℤ) (As : List Mat) : List Mat := (As.zipIdx.filter fun p => !decide ((p.2 : ℤ) ∈ keep)).map Prod.fst
/-- The factors at the kept positions, identities at the traced ones. -/
def paddedOf (keep : List ℤ) (As : List Mat) : List Mat :=
  As.zipIdx.map fun p => if (p.2 : ℤ) ∈ keep then p.1 else ident p.1.rows

/-- Factors with their flags. -/
def flagged (keep : List ℤ) (As : List Mat) : List (Bool × Mat) := As.zipIdx.map fun p => (decide ((p.2 : ℤ) ∈ keep), p.1)

theorem flagged_snd (keep : List ℤ) (As : List Mat) : (flagged keep As).map Prod.snd = As := by
  simp [flagged, List.map_map, Function.comp_def]
theorem szs_flagged (keep : List ℤ) (As : List Mat) : szs (flagged keep As) = flags keep (As.map Mat.rows) := by
  simp only [szs, flagged, flags, List.map_map]
  apply List.ext_getElem
  · simp
  · intro i h1 h2
    simp at h1
    simp [h1]
theorem kept_flagged (keep : List ℤ) (As : List Mat) : ((flagged keep As).filter Prod.fst).map Prod.snd = keptOf keep As := by
  simp [flagged, keptOf, List.filter_map, List.map_map, Function.comp_def]
theorem traced_flagged (keep : List ℤ) (As : List Mat) :
    ((flagged keep As).filter fun p => !p.1).map Prod.snd = tracedOf keep As := by
  simp [flagged, tracedOf, List.filter_map, List.map_map, Function.comp_def]
theorem padded_flagged (keep : List ℤ) (As : List Mat) : padded (flagged keep As) = paddedOf keep As := by
  simp [flagged, padded, paddedOf, List.map_map, Function.comp_def]
theorem flagged_sq (keep : List ℤ) (As : List Mat) (h : ∀ A ∈ As, A.rows = A.cols) :
    ∀ p ∈ flagged keep As, p.2.rows = p.2.cols := by
  intro p hp
  apply h
  rw [← flagged_snd keep As]
  exact List.mem_map.mpr ⟨p, hp, rfl⟩

theorem keptOf_ne (keep : List ℤ) (As : List Mat) (hk : ValidKeep keep As.length) : keptOf keep As ≠ [] := by
  obtain ⟨k, hk'⟩ := List.exists_mem_of_ne_nil _ hk.ne
  have hr := hk.range k hk'
  have hlt : k.toNat < As.length := by omega
  have : As[k.toNat] ∈ keptOf keep As := by
    refine List.mem_map.mpr ⟨(As[k.toNat], k.toNat), List.mem_filter.mpr ⟨?_, ?_⟩, rfl⟩
    · exact List.mem_zipIdx_iff_getElem?.mpr (by simp [hlt])
    · simp [hr.1, hk']
  exact List.ne_nil_of_mem this

/-- **C45 (product states).** Tracing a tensor product gives the tensor product of the kept factors times the traces of the
traced ones; in particular `tr(B) A` for `A x B`. -/
theorem C45_product (keep : List ℤ) (As : List Mat) (hsq : ∀ A ∈ As, A.rows = A.cols) (hk : ValidKeep keep As.length)
    (rho : Mat) (hrho : tensorProd (As.map .mat) = some rho) :
    ∃ R T, partialTrace keep (As.map Mat.rows) rho = some R ∧ tensorProd ((keptOf keep As).map .mat) = some T ∧
      Same R (smul ((tracedOf keep As).map trace).prod T) := by
  have hsame := tensorProd_tens As rho hrho
  have hfl := flagged_sq keep As hsq
  have hon : OnSpace rho (As.map Mat.rows) := by
    constructor
    · rw [hsame.1, (tens_shape As).1]
    · rw [hsame.2.1, (tens_shape As).2]; congr 1; exact List.map_congr_left fun A hA => (hsq A hA).symm
  obtain ⟨R, hR, hs⟩ := partialTrace_mat keep (As.map Mat.rows) rho (by simpa using hk) hon
  obtain ⟨T, hT⟩ := tensorProd_ne_none (xs := (keptOf keep As).map Arg.mat) (by simpa using keptOf_ne keep As hk)
  refine ⟨R, T, hR, hT, hs.trans ?_⟩
  have hTs := tensorProd_tens _ _ hT
  have hrow : (tens (keptOf keep As)).rows = (keptD (flags keep (As.map Mat.rows))).prod := by
    rw [← kept_flagged, tens_rows_kept, szs_flagged]
  have hcol : (tens (keptOf keep As)).cols = (keptD (flags keep (As.map Mat.rows))).prod := by
    rw [← kept_flagged, tens_cols_kept _ hfl, szs_flagged]
  refine ⟨?_, ?_, ?_⟩
  · simp only [smul]; rw [hTs.1, hrow]
  · simp only [smul]; rw [hTs.2.1, hcol]
  · intro r hr c hc
    simp only [smul] at hr hc ⊢
    rw [hTs.2.2 r (by rw [hTs.1, hrow]; exact hr) c (by rw [hTs.2.1, hcol]; exact hc)]
    rw [PTn_congr _ _ (tens As).entry r c hr hc]
    · have := PTn_tens (flagged keep As) hfl r c (by rw [szs_flagged]; exact hr) (by rw [szs_flagged]; exact hc)
      rw [szs_flagged, flagged_snd, kept_flagged] at this
      rw [this, ← traced_flagged, List.map_map]; rfl
    · intro i hi j hj
      rw [allD_flags] at hi hj
      exact hsame.2.2 i (by rw [hon.rows]; exact hi) j (by rw [hon.cols]; exact hj)

/-- `O` extended to the whole space (identity on the traced subsystems). -/
def extOp (keep : List ℤ) (dims : List ℕ) (O : Mat) : Mat := ⟨dims.prod, dims.prod, ext (flags keep dims) O.entry⟩

/-- The extension is what its name says: on tensor products it puts the factors at the kept positions and identities at the
others. -/
theorem extOp_tensor (keep : List ℤ) (As : List Mat) (hsq : ∀ A ∈ As, A.rows = A.cols) (O P : Mat)
    (hO : tensorProd ((keptOf keep As).map .mat) = some O) (hP : tensorProd ((paddedOf keep As).map .mat) = some P) :
    Same (extOp keep (As.map Mat.rows) O) P := by
  have hfl := flagged_sq keep As hsq
  have hOs := tensorProd_tens _ _ hO
  have hPs := tensorProd_tens _ _ hP
  have hKr : (tens (keptOf keep As)).rows = (keptD (flags keep (As.map Mat.rows))).prod := by
    rw [← kept_flagged, tens_rows_kept, szs_flagged]
  have hKc : (tens (keptOf keep As)).cols = (keptD (flags keep (As.map Mat.rows))).prod := by
    rw [← kept_flagged, tens_cols_kept _ hfl, szs_flagged]
  refine Same.trans ?_ hPs.symm
  have hsh := tens_shape (paddedOf keep As)
  have e1 : (paddedOf keep As).map Mat.rows = As.map Mat.rows := by
    simp only [paddedOf, List.map_map]
    apply List.ext_getElem
    · simp
    · intro i _ _; simp; split_ifs <;> rfl
  have e2 : (paddedOf keep As).map Mat.cols = As.map Mat.rows := by
    simp only [paddedOf, List.map_map]
    apply List.ext_getElem
    · simp
    · intro i h1 _
      simp at h1
      simp
      split_ifs
      · exact (hsq _ (List.getElem_mem _)).symm
      · rfl
  refine ⟨by rw [hsh.1, e1]; rfl, by rw [hsh.2, e2]; rfl, ?_⟩
  intro i hi j hj
  simp only [extOp] at hi hj ⊢
  rw [ext_congr _ _ (tens (keptOf keep As)).entry i j (by rwa [allD_flags]) (by rwa [allD_flags])]
  · have := ext_tens (flagged keep As) hfl i j (by rw [szs_flagged, allD_flags]; exact hi) (by rw [szs_flagged, allD_flags]; exact hj)
    rw [szs_flagged, kept_flagged, padded_flagged] at this
    exact this
  · intro r hr c hc
    exact hOs.2.2 r (by rw [hOs.1, hKr]; exact hr) c (by rw [hOs.2.1, hKc]; exact hc)

/-- **C45 (duality).** `tr(partialTrace(rho) O) = tr(rho (O x 1))` for every operator on the kept subsystems. -/
theorem C45_duality (keep : List ℤ) (dims : List ℕ) (rho R O : Mat) (hk : ValidKeep keep dims.length) (h : OnSpace rho dims)
    (hR : partialTrace keep dims rho = some R) (hOr : O.rows = R.rows) (hOc : O.cols = R.rows) :
    trace (mul R O) = trace (mul rho (extOp keep dims O)) := by
  obtain ⟨R', hR', hs⟩ := partialTrace_mat keep dims rho hk h
  rw [hR] at hR'; cases hR'
  set ms := flags keep dims with hms
  have hRr : R.rows = (keptD ms).prod := hs.1
  have hRc : R.cols = (keptD ms).prod := hs.2.1
  have hdual := PTn_dual ms rho.entry O.entry
  rw [hms, allD_flags, ← hms] at hdual
  simp only [trace, mul, extOp, hRr, hRc, hOc, h.rows, h.cols, Nat.min_self]
  rw [← hms, ← hdual]
  apply sum_congr rfl; intro r hr
  apply sum_congr rfl; intro c hc
  rw [hs.2.2 r (by rw [hRr]; exact mem_range.mp hr) c (by rw [hRc]; exact mem_range.mp hc)]

/-- **C45 (duality, in terms of `tensorProd`).** Expectation values of products of local operators on the kept subsystems can be
computed from the reduced state. -/
theorem C45_duality_tensor (keep : List ℤ) (As : List Mat) (hsq : ∀ A ∈ As, A.rows = A.cols) (hk : ValidKeep keep As.length)
    (rho R O P : Mat) (h : OnSpace rho (As.map Mat.rows)) (hR : partialTrace keep (As.map Mat.rows) rho = some R)
    (hO : tensorProd ((keptOf keep As).map .mat) = some O) (hP : tensorProd ((paddedOf keep As).map .mat) = some P) :
    trace (mul R O) = trace (mul rho P) := by
  have hfl := flagged_sq keep As hsq
  have hOs := tensorProd_tens _ _ hO
  obtain ⟨R', hR', hs⟩ := partialTrace_mat keep (As.map Mat.rows) rho (by simpa using hk) h
  rw [hR] at hR'; cases hR'
  have hKr : (tens (keptOf keep As)).rows = (keptD (flags keep (As.map Mat.rows))).prod := by
    rw [← kept_flagged, tens_rows_kept, szs_flagged]
  have hKc : (tens (keptOf keep As)).cols = (keptD (flags keep (As.map Mat.rows))).prod := by
    rw [← kept_flagged, tens_cols_kept _ hfl, szs_flagged]
  rw [C45_duality keep (As.map Mat.rows) rho R O (by simpa using hk) h hR (by rw [hOs.1, hKr, hs.1])
    (by rw [hOs.2.1, hKc, hs.1])]
  apply Same.trace
  apply (Same.refl rho).mul (extOp_tensor keep As hsq O P hO hP)
  rw [h.cols]; rfl

theorem mapM_perm {α β : Type*} (f : α → Option β) {l l' : List α} (h : l.Perm l') :
    (∃ r r', l.mapM f = some r ∧ l'.mapM f = some r' ∧ r.Perm r') ∨ (l.mapM f = none ∧ l'.mapM f = none) := by
  induction h with
  | nil => left; exact ⟨[], [], rfl, rfl, .refl _⟩
  | cons a _ ih =>
    rw [List.mapM_cons, List.mapM_cons]
    cases f a with
    | none => right; exact ⟨rfl, rfl⟩
    | some b =>
      rcases ih with ⟨r, r', h1, h2, h3⟩ | ⟨h1, h2⟩
      · left; exact ⟨b :: r, b :: r', by rw [h1]; rfl, by rw [h2]; rfl, h3.cons b⟩
      · right; rw [h1, h2]; exact ⟨rfl, rfl⟩
  | swap a b l =>
    simp only [List.mapM_cons]
    cases ha : f a <;> cases hb : f b <;> cases hl : l.mapM f
    all_goals first
      | (right; exact ⟨rfl, rfl⟩)
      | (left; exact ⟨_, _, rfl, rfl, .swap _ _ _⟩)
  | trans _ _ ih1 ih2 =>
    rcases ih1 with ⟨r, r', h1, h2, h3⟩ | ⟨h1, h2⟩
    · rcases ih2 with ⟨s, s', k1, k2, k3⟩ | ⟨k1, k2⟩
      · left
        rw [h2] at k1; cases k1
        exact ⟨r, s', h1, k2, h3.trans k3⟩
      · rw [h2] at k1; cases k1
    · rcases ih2 with ⟨s, s', k1, k2, k3⟩ | ⟨k1, k2⟩
      · rw [h2] at k1; cases k1
      · right; exact ⟨h1, k2⟩

/-- **C45 (order).** The order of the indices in `keep` does not matter at all, for valid and invalid inputs. -/
theorem C45_order (keep keep' : List ℤ) (dims : List ℕ) (state : Mat) (h : keep.Perm keep') :
    partialTrace keep dims state = partialTrace keep' dims state := by
  have hmem : ∀ k, k ∈ keep ↔ k ∈ keep' := fun k => h.mem_iff
  have hnil : keep = [] ↔ keep' = [] := by
    constructor
    · rintro rfl; exact h.nil_eq.symm
    · rintro rfl; exact h.eq_nil
  simp only [partialTrace, hmem, hnil]
  rcases mapM_perm (pyGet dims) h with ⟨r, r', h1, h2, h3⟩ | ⟨h1, h2⟩
  · rw [h1, h2]
    simp only [h3.prod_eq]
  · rw [h1, h2]

/-- **C45 (kets).** A ket is treated as its density matrix. -/
theorem C45_ket (keep : List ℤ) (dims : List ℕ) (k : Mat) (hk : k.cols = 1) (hne : k.rows ≠ 1) :
    partialTrace keep dims k = partialTrace keep dims (mul k (hc k)) := by
  have h1 : (if k.rows ≠ k.cols then mul k (hc k) else k) = mul k (hc k) := if_pos (by rw [hk]; exact hne)
  have h2 : (if (mul k (hc k)).rows ≠ (mul k (hc k)).cols then mul (mul k (hc k)) (hc (mul k (hc k))) else mul k (hc k)) =
      mul k (hc k) := if_neg (by simp [mul, hc])
  simp only [partialTrace, h1, h2]

/-- **C45 (pure product).** Two factors, spelled out. -/
theorem C45_two_factors (A B rho : Mat) (hA : A.rows = A.cols) (hB : B.rows = B.cols)
    (hrho : tensorProd [.mat A, .mat B] = some rho) :
    (∃ R, partialTrace [0] [A.rows, B.rows] rho = some R ∧ Same R (smul (trace B) A)) ∧
    (∃ R, partialTrace [1] [A.rows, B.rows] rho = some R ∧ Same R (smul (trace A) B)) := by
  have hsq : ∀ X ∈ [A, B], X.rows = X.cols := by simp [hA, hB]
  constructor
  · obtain ⟨R, T, h1, h2, h3⟩ := C45_product [0] [A, B] hsq ⟨by simp, by simp, by simp⟩ rho (by simpa using hrho)
    refine ⟨R, by simpa using h1, ?_⟩
    simp [keptOf, tracedOf, List.zipIdx, tensorProd] at h2 h3
    rw [h2]; exact h3
  · obtain ⟨R, T, h1, h2, h3⟩ := C45_product [1] [A, B] hsq ⟨by simp, by simp, by simp⟩ rho (by simpa using hrho)
    refine ⟨R, by simpa using h1, ?_⟩
    simp [keptOf, tracedOf, List.zipIdx, tensorProd] at h2 h3
    rw [h2]; exact h3

/-- Non-trivial instance: three subsystems of sizes 2, 3, 2, the first and last one kept (given in reverse order). -/
example : ValidKeep [2, 0] [2, 3, 2].length := ⟨by simp, by simp, by simp⟩
example : ∃ R, partialTrace [2, 0] [2, 3, 2] (ident 12) = some R ∧ R.rows = 4 ∧ trace R = 12 := by
  have hv : ValidKeep [2, 0] [2, 3, 2].length := ⟨by simp, by simp, by simp⟩
  have hon : OnSpace (ident 12) [2, 3, 2] := ⟨rfl, rfl⟩
  obtain ⟨R, h1, h2, _⟩ := C45_defined [2, 0] [2, 3, 2] (ident 12) hv hon
  refine ⟨R, h1, h2, ?_⟩
  rw [C45_trace _ _ _ _ hv hon h1]
  simp [trace, ident]
/-- Negative indices pass `dims[keep]` but not the computation of the labels: counted from the end, a single negative index is
accepted exactly if the dimension it names is one (otherwise the final `reshape` raises). -/
theorem C45_negative_index (dims : List ℕ) (k d : ℕ) (hk : 1 ≤ k) (hk' : k ≤ dims.length)
    (hd : dims[dims.length - k]? = some d) (rho : Mat) (h : OnSpace rho dims) :
    (partialTrace [-(k : ℤ)] dims rho).isSome ↔ d = 1 := by
  have h1 : List.mapM (pyGet dims) [-(k : ℤ)] = some [d] := by
    have : pyGet dims (-(k : ℤ)) = some d := by
      unfold pyGet
      rw [if_neg (by omega), if_pos (by omega)]
      simpa using hd
    simp [this]
  have h2 : ((List.range dims.length).map fun i : ℕ => if (i : ℤ) ∈ [-(k : ℤ)] then dims.length + i else i)
      = List.range dims.length := by
    rw [List.map_congr_left (g := id)]
    · simp
    · intro i _
      rw [if_neg (by simp; omega)]
      rfl
  have h3 : outLabels (List.range dims.length ++ List.range dims.length) = [] := by
    have : (List.range dims.length ++ List.range dims.length).filter
        (fun l => (List.range dims.length ++ List.range dims.length).count l = 1) = [] := by
      rw [List.filter_eq_nil_iff]
      intro l hl
      rw [List.count_append]
      have := List.count_pos_iff.mpr ((List.mem_append.mp hl).elim id id)
      simp; omega
    rw [outLabels, this]; simp
  have h4 : rho.rows * rho.cols = (dims ++ dims).prod := by rw [List.prod_append, h.rows, h.cols]
  have h5 : (if rho.rows ≠ rho.cols then mul rho (hc rho) else rho) = rho := h.square.symm
  simp only [partialTrace, h1, h2, einsum, h3, h5, h4]
  by_cases hd1 : d = 1
  · simp [hd1]
  · have : 1 ≠ d * d := fun h => hd1 (Nat.mul_self_inj.mp (by omega))
    simp [hd1, this]

example (rho : Mat) (h : OnSpace rho [2, 3]) : partialTrace [-2] [2, 3] rho = none := by
  have := C45_negative_index [2, 3] 2 2 (by simp) (by simp) (by simp) rho h
  simpa using this

end Verif.PTrace
