import Verif.PTrace.Model

/-!
# Partial trace: from the einsum labels to a sum over the traced digits
-/
namespace Verif.PTrace
open Verif.NMat

/-- Partial trace over multi-indices, one subsystem after the other; the flag says whether the subsystem is kept. -/
def PT : List (Bool × ℕ) → (List ℕ → List ℕ → ℂ) → List ℕ → List ℕ → ℂ
  | [], G, _, _ => G [] []
  | (true, _) :: ms, G, rs, cs => PT ms (fun a b => G (rs.headD 0 :: a) (cs.headD 0 :: b)) rs.tail cs.tail
  | (false, d) :: ms, G, rs, cs => ∑ v ∈ Finset.range d, PT ms (fun a b => G (v :: a) (v :: b)) rs cs

theorem sumLabels_congr (dim : ℕ → ℕ) (ls : List ℕ) (F F' : Env → ℂ) (σ : Env)
    (h : ∀ τ : Env, (∀ l, l ∉ ls → τ l = σ l) → F τ = F' τ) : sumLabels dim ls F σ = sumLabels dim ls F' σ := by
  induction ls generalizing σ with
  | nil => exact h σ fun _ _ => rfl
  | cons l ls ih =>
    simp only [sumLabels]
    apply Finset.sum_congr rfl
    intro v _
    apply ih
    intro τ hτ
    apply h
    intro m hm
    rw [hτ m (fun hm' => hm (List.mem_cons_of_mem _ hm')), Function.update_of_ne]
    rintro rfl; exact hm List.mem_cons_self

theorem sumLabels_eq_PT (dim : ℕ → ℕ) (mask : ℕ → Bool) (N : ℕ) (ps : List ℕ) (hnd : ps.Nodup) (hlt : ∀ p ∈ ps, p < N)
    (G : List ℕ → List ℕ → ℂ) (σ : Env) :
    sumLabels dim (ps.filter fun i => !mask i)
      (fun τ => G (ps.map τ) (ps.map fun i => if mask i then τ (N + i) else τ i)) σ =
    PT (ps.map fun i => (mask i, dim i)) G ((ps.filter mask).map σ) ((ps.filter mask).map fun i => σ (N + i)) := by
  induction ps generalizing G σ with
  | nil => rfl
  | cons p ps ih =>
    obtain ⟨hp, hnd'⟩ := List.nodup_cons.mp hnd
    have hlt' := fun q hq => hlt q (List.mem_cons_of_mem p hq)
    by_cases hm : mask p = true
    · simp only [List.filter_cons, hm, Bool.not_true, Bool.false_eq_true, if_false, if_true, List.map_cons, PT,
        List.headD_cons, List.tail_cons]
      rw [← ih hnd' hlt' (fun a b => G (σ p :: a) (σ (N + p) :: b)) σ]
      apply sumLabels_congr
      intro τ hτ
      rw [hτ p, hτ (N + p)]
      · intro h; have := hlt' _ (List.mem_filter.mp h).1; omega
      · intro h; exact hp (List.mem_filter.mp h).1
    · have hm' : mask p = false := by simpa using hm
      simp only [List.filter_cons, hm', Bool.not_false, Bool.false_eq_true, if_false, if_true, List.map_cons, PT, sumLabels]
      apply Finset.sum_congr rfl
      intro v _
      have e1 : (ps.filter mask).map σ = (ps.filter mask).map (Function.update σ p v) := by
        apply List.map_congr_left
        intro q hq
        rw [Function.update_of_ne]; rintro rfl; exact hp (List.mem_filter.mp hq).1
      have e2 : (ps.filter mask).map (fun i => σ (N + i)) = (ps.filter mask).map fun i => Function.update σ p v (N + i) := by
        apply List.map_congr_left
        intro q _
        rw [Function.update_of_ne]; have := hlt p List.mem_cons_self; omega
      rw [e1, e2, ← ih hnd' hlt' (fun a b => G (v :: a) (v :: b))]
      apply sumLabels_congr
      intro τ hτ
      rw [hτ p (fun h => hp (List.mem_filter.mp h).1), Function.update_self]

/-- Multi-indices inside a shape. -/
def InShape (ds is : List ℕ) : Prop := List.Forall₂ (fun d i => i < d) ds is

/-- All sizes / sizes of the kept subsystems / of the traced ones. -/
def allD (ms : List (Bool × ℕ)) : List ℕ := ms.map Prod.snd
def keptD (ms : List (Bool × ℕ)) : List ℕ := (ms.filter Prod.fst).map Prod.snd
def tracedD (ms : List (Bool × ℕ)) : List ℕ := (ms.filter fun p => !p.1).map Prod.snd

@[simp] theorem allD_cons (p : Bool × ℕ) (ms) : allD (p :: ms) = p.2 :: allD ms := rfl
@[simp] theorem keptD_true (d : ℕ) (ms) : keptD ((true, d) :: ms) = d :: keptD ms := rfl
@[simp] theorem keptD_false (d : ℕ) (ms) : keptD ((false, d) :: ms) = keptD ms := rfl
@[simp] theorem tracedD_true (d : ℕ) (ms) : tracedD ((true, d) :: ms) = tracedD ms := rfl
@[simp] theorem tracedD_false (d : ℕ) (ms) : tracedD ((false, d) :: ms) = d :: tracedD ms := rfl

theorem PT_congr (ms : List (Bool × ℕ)) (G G' : List ℕ → List ℕ → ℂ) (rs cs : List ℕ) (hr : InShape (keptD ms) rs)
    (hc : InShape (keptD ms) cs)
    (h : ∀ a b, InShape (allD ms) a → InShape (allD ms) b → G a b = G' a b) : PT ms G rs cs = PT ms G' rs cs := by
  induction ms generalizing G G' rs cs with
  | nil => exact h [] [] .nil .nil
  | cons p ms ih =>
    obtain ⟨b, d⟩ := p
    cases b with
    | true =>
      rw [keptD_true] at hr hc
      cases hr with
      | cons hr1 hr2 =>
        cases hc with
        | cons hc1 hc2 =>
          simp only [PT, List.headD_cons, List.tail_cons]
          apply ih _ _ _ _ hr2 hc2
          intro a b ha hb
          exact h _ _ (.cons hr1 ha) (.cons hc1 hb)
    | false =>
      rw [keptD_false] at hr hc
      simp only [PT]
      apply Finset.sum_congr rfl
      intro v hv
      apply ih _ _ _ _ hr hc
      intro a b ha hb
      exact h _ _ (.cons (Finset.mem_range.mp hv) ha) (.cons (Finset.mem_range.mp hv) hb)

/-- Partial trace over plain indices. -/
def PTn : List (Bool × ℕ) → (ℕ → ℕ → ℂ) → ℕ → ℕ → ℂ
  | [], f, _, _ => f 0 0
  | (true, _) :: ms, f, r, c =>
    let K := (keptD ms).prod
    let D := (allD ms).prod
    PTn ms (fun a b => f (r / K * D + a) (c / K * D + b)) (r % K) (c % K)
  | (false, d) :: ms, f, r, c =>
    let D := (allD ms).prod
    ∑ v ∈ Finset.range d, PTn ms (fun a b => f (v * D + a) (v * D + b)) r c

theorem PT_ravel (ms : List (Bool × ℕ)) (f : ℕ → ℕ → ℂ) (r c : ℕ) :
    PT ms (fun a b => f (ravel (allD ms) a) (ravel (allD ms) b)) (digits (keptD ms) r) (digits (keptD ms) c) =
    PTn ms f r c := by
  induction ms generalizing f r c with
  | nil => rfl
  | cons p ms ih =>
    obtain ⟨b, d⟩ := p
    cases b with
    | true =>
      simp only [PT, keptD_true, digits, List.headD_cons, List.tail_cons, allD_cons, ravel, PTn]
      exact ih (fun a b => f (r / (keptD ms).prod * (allD ms).prod + a) (c / (keptD ms).prod * (allD ms).prod + b)) _ _
    | false =>
      simp only [PT, keptD_false, allD_cons, ravel, PTn]
      exact Finset.sum_congr rfl fun v _ =>
        ih (fun a b => f (v * (allD ms).prod + a) (v * (allD ms).prod + b)) _ _

theorem inShape_digits (ds : List ℕ) (i : ℕ) (h : i < ds.prod) : InShape ds (digits ds i) := by
  induction ds generalizing i with
  | nil => exact .nil
  | cons d ds ih =>
    rw [List.prod_cons] at h
    have h0 : 0 < ds.prod := Nat.pos_of_ne_zero (by rintro h0; simp [h0] at h)
    exact .cons (Nat.div_lt_of_lt_mul (by rwa [Nat.mul_comm])) (ih _ (Nat.mod_lt _ h0))

theorem ravel_lt (ds is : List ℕ) (h : InShape ds is) : ravel ds is < ds.prod := by
  induction h with
  | nil => simp [ravel]
  | @cons d i ds is h1 _ ih =>
    simp only [ravel, List.prod_cons]
    calc i * ds.prod + ravel ds is < i * ds.prod + ds.prod := by omega
      _ = (i + 1) * ds.prod := by ring
      _ ≤ d * ds.prod := Nat.mul_le_mul_right _ h1

theorem ravel_append (ds es is js : List ℕ) (h : InShape ds is) :
    ravel (ds ++ es) (is ++ js) = ravel ds is * es.prod + ravel es js := by
  induction h with
  | nil => simp [ravel]
  | @cons d i ds is h1 _ ih =>
    simp only [List.cons_append, ravel, ih, List.prod_append]; ring

theorem digits_append (ds es : List ℕ) (i j : ℕ) (hi : i < ds.prod) (hj : j < es.prod) :
    digits (ds ++ es) (i * es.prod + j) = digits ds i ++ digits es j := by
  induction ds generalizing i with
  | nil =>
    simp only [List.prod_nil, Nat.lt_one_iff] at hi
    simp [hi, digits]
  | cons d ds ih =>
    have hE : 0 < es.prod := by omega
    have hP : 0 < ds.prod := Nat.pos_of_ne_zero (by rintro h0; simp [h0] at hi)
    simp only [List.cons_append, digits, List.prod_append]
    have e1 : (i * es.prod + j) / (ds.prod * es.prod) = i / ds.prod := by
      rw [Nat.mul_comm ds.prod, ← Nat.div_div_eq_div_mul, Nat.add_comm, Nat.add_mul_div_right _ _ hE, Nat.div_eq_of_lt hj,
        Nat.zero_add]
    have e2 : (i * es.prod + j) % (ds.prod * es.prod) = i % ds.prod * es.prod + j := by
      have : i * es.prod + j = (i % ds.prod * es.prod + j) + (ds.prod * es.prod) * (i / ds.prod) := by
        conv_lhs => rw [← Nat.mod_add_div i ds.prod]
        ring
      rw [this, Nat.add_mul_mod_self_left, Nat.mod_eq_of_lt]
      calc i % ds.prod * es.prod + j < i % ds.prod * es.prod + es.prod := by omega
        _ = (i % ds.prod + 1) * es.prod := by ring
        _ ≤ ds.prod * es.prod := Nat.mul_le_mul_right _ (Nat.mod_lt _ hP)
    rw [e1, e2, ih _ (Nat.mod_lt _ hP)]

/-! ## The labels -/

section labels
variable (N : ℕ) (mask : ℕ → Bool)

/-- `idx1 + idx2`. -/
def labs : List ℕ := List.range N ++ (List.range N).map fun i => if mask i then N + i else i

theorem nodup_idx2 : ((List.range N).map fun i => if mask i then N + i else i).Nodup := by
  apply List.Nodup.map_on _ List.nodup_range
  intro a ha b hb h
  have := List.mem_range.mp ha
  have := List.mem_range.mp hb
  split_ifs at h <;> omega

theorem count_low (i : ℕ) (hi : i < N) : (labs N mask).count i = if mask i then 1 else 2 := by
  rw [labs, List.count_append, List.count_eq_one_of_mem List.nodup_range (List.mem_range.mpr hi)]
  by_cases h : mask i = true
  · rw [List.count_eq_zero_of_not_mem]
    · simp [h]
    · intro hm
      obtain ⟨j, hj, e⟩ := List.mem_map.mp hm
      split_ifs at e with hmj
      · omega
      · subst e; exact hmj h
  · rw [List.count_eq_one_of_mem (nodup_idx2 N mask)]
    · simp [h]
    · exact List.mem_map.mpr ⟨i, List.mem_range.mpr hi, by simp [h]⟩

theorem count_high (i : ℕ) (hi : i < N) (h : mask i = true) : (labs N mask).count (N + i) = 1 := by
  rw [labs, List.count_append, List.count_eq_zero_of_not_mem (by simp), List.count_eq_one_of_mem (nodup_idx2 N mask)]
  exact List.mem_map.mpr ⟨i, List.mem_range.mpr hi, by simp [h]⟩

theorem outLabels_labs : outLabels (labs N mask) =
    (List.range N).filter mask ++ ((List.range N).filter mask).map (N + ·) := by
  have h : (labs N mask).filter (fun l => (labs N mask).count l = 1) =
      (List.range N).filter mask ++ ((List.range N).filter mask).map (N + ·) := by
    conv_lhs => arg 2; rw [labs]
    rw [List.filter_append, List.filter_map]
    congr 1
    · apply List.filter_congr
      intro i hi
      rw [count_low N mask i (List.mem_range.mp hi)]
      cases mask i <;> simp
    · have : (List.range N).filter ((fun l => decide ((labs N mask).count l = 1)) ∘
          fun i => if mask i then N + i else i) = (List.range N).filter mask := by
        apply List.filter_congr
        intro i hi
        have hi' := List.mem_range.mp hi
        cases hm : mask i
        · simp [hm, count_low N mask i hi']
        · simp [hm, count_high N mask i hi' hm]
      rw [this]
      apply List.map_congr_left
      intro i hi
      simp [(List.mem_filter.mp hi).2]
  rw [outLabels, h, List.mergeSort_of_pairwise]
  rw [List.pairwise_append]
  have hp : ((List.range N).filter mask).Pairwise (· ≤ ·) := (List.pairwise_le_range).filter _
  refine ⟨hp.imp (by simp), ?_, ?_⟩
  · rw [List.pairwise_map]
    exact hp.imp (by simp)
  · intro a ha b hb
    obtain ⟨j, _, rfl⟩ := List.mem_map.mp hb
    have := List.mem_range.mp (List.mem_filter.mp ha).1
    simp; omega

theorem repLabels_labs : repLabels (labs N mask) = (List.range N).filter fun i => !mask i := by
  have h : (labs N mask).filter (fun l => 1 < (labs N mask).count l) =
      ((List.range N).filter fun i => !mask i) ++ ((List.range N).filter fun i => !mask i) := by
    conv_lhs => arg 2; rw [labs]
    rw [List.filter_append, List.filter_map]
    congr 1
    · apply List.filter_congr
      intro i hi
      rw [count_low N mask i (List.mem_range.mp hi)]
      cases mask i <;> simp
    · have : (List.range N).filter ((fun l => decide (1 < (labs N mask).count l)) ∘
          fun i => if mask i then N + i else i) = (List.range N).filter fun i => !mask i := by
        apply List.filter_congr
        intro i hi
        have hi' := List.mem_range.mp hi
        cases hm : mask i
        · simp [hm, count_low N mask i hi']
        · simp [hm, count_high N mask i hi' hm]
      rw [this]
      conv_rhs => rw [← List.map_id ((List.range N).filter fun i => !mask i)]
      apply List.map_congr_left
      intro i hi
      have := (List.mem_filter.mp hi).2
      simp at this
      simp [this]
  rw [repLabels, h, List.dedup_append, List.Subset.union_eq_right]
  · exact (List.nodup_range.filter _).dedup
  · exact List.subset_dedup _

theorem labelDim_low (dims : List ℕ) (i : ℕ) (hi : i < dims.length) :
    labelDim (dims ++ dims) (labs dims.length mask) i = dims.getD i 0 := by
  have h1 : (labs dims.length mask).idxOf i = i := by
    rw [labs, List.idxOf_append_of_mem (List.mem_range.mpr hi)]
    have := List.nodup_range.idxOf_getElem i (xs := List.range dims.length) (by simpa using hi)
    simpa using this
  rw [labelDim, h1, List.getD_eq_getElem?_getD, List.getD_eq_getElem?_getD, List.getElem?_append_left hi]

theorem labelDim_high (dims : List ℕ) (i : ℕ) (hi : i < dims.length) (hm : mask i = true) :
    labelDim (dims ++ dims) (labs dims.length mask) (dims.length + i) = dims.getD i 0 := by
  have h1 : (labs dims.length mask).idxOf (dims.length + i) = dims.length + i := by
    rw [labs, List.idxOf_append_of_notMem (by simp)]
    have := (nodup_idx2 dims.length mask).idxOf_getElem i (by simpa using hi)
    simp only [List.getElem_map, List.getElem_range, hm, if_true] at this
    rw [this]; simp
  rw [labelDim, h1, List.getD_eq_getElem?_getD, List.getD_eq_getElem?_getD, List.getElem?_append_right (by omega)]
  simp

end labels

theorem map_env (out idx : List ℕ) (hnd : out.Nodup) (hlen : idx.length = out.length) :
    out.map (fun l => idx.getD (out.idxOf l) 0) = idx := by
  apply List.ext_getElem
  · simp [hlen]
  · intro i h1 h2
    simp only [List.length_map] at h1
    rw [List.getElem_map, hnd.idxOf_getElem i h1, List.getD_eq_getElem?_getD, List.getElem?_eq_getElem h2, Option.getD_some]

theorem digits_length (ds : List ℕ) (i : ℕ) : (digits ds i).length = ds.length := by
  induction ds generalizing i with
  | nil => rfl
  | cons d ds ih => simp [digits, ih]

/-- The flags and sizes belonging to a `keep` list. -/
def flags (keep : List ℤ) (dims : List ℕ) : List (Bool × ℕ) :=
  (List.range dims.length).map fun i : ℕ => (decide ((i : ℤ) ∈ keep), dims.getD i 0)

theorem allD_flags (keep : List ℤ) (dims : List ℕ) : allD (flags keep dims) = dims := by
  simp only [allD, flags, List.map_map, Function.comp_def]
  apply List.ext_getElem
  · simp
  · intro i h1 h2
    simp [h2]

theorem keptD_flags (keep : List ℤ) (dims : List ℕ) : keptD (flags keep dims) =
    ((List.range dims.length).filter fun i : ℕ => decide ((i : ℤ) ∈ keep)).map fun i => dims.getD i 0 := by
  simp only [keptD, flags, List.filter_map, List.map_map, Function.comp_def]

/-- A valid `keep` list: not empty, distinct, non-negative and in range. -/
structure ValidKeep (keep : List ℤ) (n : ℕ) : Prop where
  ne : keep ≠ []
  nodup : keep.Nodup
  range : ∀ k ∈ keep, 0 ≤ k ∧ k < n

theorem mapM_pyGet (keep : List ℤ) (dims : List ℕ) (h : ∀ k ∈ keep, 0 ≤ k ∧ k < dims.length) :
    keep.mapM (pyGet dims) = some (keep.map fun k => dims.getD k.toNat 0) := by
  induction keep with
  | nil => rfl
  | cons k ks ih =>
    have hk := h k List.mem_cons_self
    have e : pyGet dims k = some (dims.getD k.toNat 0) := by
      have : k.toNat < dims.length := by omega
      simp [pyGet, hk.1, this]
    rw [List.mapM_cons, e, ih fun q hq => h q (List.mem_cons_of_mem _ hq)]
    rfl

theorem kept_perm (keep : List ℤ) (n : ℕ) (h : ValidKeep keep n) :
    List.Perm (keep.map Int.toNat) ((List.range n).filter fun i : ℕ => decide ((i : ℤ) ∈ keep)) := by
  rw [List.perm_ext_iff_of_nodup]
  · intro i
    simp only [List.mem_map, List.mem_filter, List.mem_range, decide_eq_true_eq]
    constructor
    · rintro ⟨k, hk, rfl⟩
      have := h.range k hk
      refine ⟨by omega, ?_⟩
      rwa [Int.toNat_of_nonneg this.1]
    · rintro ⟨_, hk⟩
      exact ⟨_, hk, by simp⟩
  · apply List.Nodup.map_on _ h.nodup
    intro a ha b hb hab
    have := h.range a ha
    have := h.range b hb
    omega
  · exact List.nodup_range.filter _

theorem nKeep_eq (keep : List ℤ) (dims : List ℕ) (h : ValidKeep keep dims.length) :
    (keep.map fun k => dims.getD k.toNat 0).prod = (keptD (flags keep dims)).prod := by
  rw [keptD_flags]
  have := (kept_perm keep dims.length h).map (fun i => dims.getD i 0)
  rw [List.map_map] at this
  exact this.prod_eq

/-- What the code computes for a valid `keep`: the sum over the traced digits. -/
theorem partialTrace_eq (keep : List ℤ) (dims : List ℕ) (state rho : Mat) (hk : ValidKeep keep dims.length)
    (hrho : rho = if state.rows ≠ state.cols then mul state (hc state) else state)
    (hr : rho.rows = dims.prod) (hc : rho.cols = dims.prod) :
    ∃ R, partialTrace keep dims state = some R ∧
      Same R ⟨(keptD (flags keep dims)).prod, (keptD (flags keep dims)).prod, PTn (flags keep dims) rho.entry⟩ := by
  set K := (keptD (flags keep dims)).prod with hK
  set mask : ℕ → Bool := fun i => decide ((i : ℤ) ∈ keep) with hmask
  have hlabs : List.range dims.length ++ (List.range dims.length).map (fun i : ℕ => if (i : ℤ) ∈ keep then dims.length + i else i)
      = labs dims.length mask := by
    simp [labs, mask]
  set kept := (List.range dims.length).filter mask with hkept
  have hkd : kept.map (fun i => dims.getD i 0) = keptD (flags keep dims) := (keptD_flags keep dims).symm
  have hout : (outLabels (labs dims.length mask)).map (labelDim (dims ++ dims) (labs dims.length mask)) =
      keptD (flags keep dims) ++ keptD (flags keep dims) := by
    rw [outLabels_labs, List.map_append, List.map_map, ← hkd]
    congr 1
    · apply List.map_congr_left
      intro i hi
      exact labelDim_low _ _ _ (List.mem_range.mp (List.mem_filter.mp hi).1)
    · apply List.map_congr_left
      intro i hi
      exact labelDim_high _ _ _ (List.mem_range.mp (List.mem_filter.mp hi).1) (List.mem_filter.mp hi).2
  simp only [partialTrace, hk.ne, if_false, mapM_pyGet keep dims hk.range, nKeep_eq keep dims hk, ← hrho, hlabs, einsum, hout]
  rw [if_neg (by rw [hr, hc, List.prod_append]; simp), if_neg (by rw [List.prod_append]; simp)]
  refine ⟨_, rfl, rfl, rfl, ?_⟩
  intro r hr' c hc'
  simp only at hr' hc' ⊢
  rw [← hK] at hr' hc' ⊢
  rw [repLabels_labs]
  set idx := digits (keptD (flags keep dims) ++ keptD (flags keep dims)) (r * K + c) with hidx
  have hidx' : idx = digits (keptD (flags keep dims)) r ++ digits (keptD (flags keep dims)) c :=
    digits_append _ _ _ _ hr' hc'
  set σ : Env := fun l => idx.getD ((outLabels (labs dims.length mask)).idxOf l) 0 with hσ
  have henv : (outLabels (labs dims.length mask)).map σ = idx := by
    apply map_env
    · rw [outLabels_labs]
      apply List.Nodup.append (List.nodup_range.filter _) ((List.nodup_range.filter _).map (fun a b h => by simpa using h))
      intro a ha hb
      obtain ⟨j, _, rfl⟩ := List.mem_map.mp hb
      have := List.mem_range.mp (List.mem_filter.mp ha).1
      omega
    · rw [hidx', outLabels_labs, List.length_append, List.length_append, digits_length, digits_length, ← hkd]; simp [kept]
  rw [outLabels_labs, List.map_append, List.map_map, hidx'] at henv
  have hsplit := List.append_inj henv (by rw [digits_length, ← hkd, List.length_map, List.length_map])
  have hrow : kept.map σ = digits (keptD (flags keep dims)) r := hsplit.1
  have hcol : kept.map (fun i => σ (dims.length + i)) = digits (keptD (flags keep dims)) c := hsplit.2
  have hdimc : ∀ (F : Env → ℂ) (τ : Env), sumLabels (labelDim (dims ++ dims) (labs dims.length mask))
      ((List.range dims.length).filter fun i => !mask i) F τ =
      sumLabels (fun i => dims.getD i 0) ((List.range dims.length).filter fun i => !mask i) F τ := by
    intro F
    have : ∀ ls : List ℕ, (∀ l ∈ ls, l < dims.length) → ∀ τ : Env,
        sumLabels (labelDim (dims ++ dims) (labs dims.length mask)) ls F τ = sumLabels (fun i => dims.getD i 0) ls F τ := by
      intro ls
      induction ls with
      | nil => intros; rfl
      | cons l ls ih =>
        intro h τ
        simp only [sumLabels]
        rw [labelDim_low mask dims l (h l List.mem_cons_self)]
        exact Finset.sum_congr rfl fun v _ => ih (fun q hq => h q (List.mem_cons_of_mem _ hq)) _
    exact this _ fun l hl => List.mem_range.mp (List.mem_filter.mp hl).1
  rw [hdimc]
  have hG := sumLabels_eq_PT (fun i => dims.getD i 0) mask dims.length (List.range dims.length) List.nodup_range
    (fun p hp => List.mem_range.mp hp)
    (fun a b => rho.entry (ravel (dims ++ dims) (a ++ b) / rho.cols) (ravel (dims ++ dims) (a ++ b) % rho.cols)) σ
  have hm : ∀ τ : Env, (labs dims.length mask).map τ =
      (List.range dims.length).map τ ++ (List.range dims.length).map fun i => if mask i then τ (dims.length + i) else τ i := by
    intro τ
    rw [labs, List.map_append, List.map_map]
    congr 1
    apply List.map_congr_left
    intro i _
    simp only [Function.comp]
    split_ifs <;> rfl
  simp only [hm]
  refine hG.trans ?_
  rw [hrow, hcol]
  have hfl : (List.range dims.length).map (fun i => (mask i, dims.getD i 0)) = flags keep dims := rfl
  rw [hfl, ← PT_ravel, allD_flags]
  apply PT_congr _ _ _ _ _ (inShape_digits _ _ hr') (inShape_digits _ _ hc')
  intro a b ha hb
  rw [allD_flags] at ha hb
  rw [ravel_append _ _ _ _ ha, hc]
  have hb' := ravel_lt _ _ hb
  rw [Nat.add_comm, Nat.add_mul_div_right _ _ (by omega), Nat.div_eq_of_lt hb', Nat.zero_add, Nat.add_mul_mod_self_right,
    Nat.mod_eq_of_lt hb']

end Verif.PTrace
