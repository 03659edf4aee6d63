import Verif.Toolbox.States
import Mathlib.Tactic.FieldSimp
import Mathlib.Tactic.Positivity
import Mathlib.Tactic.LinearCombination

/-!
# C37: states made from occupation inputs
-/
namespace Verif.Toolbox
open Matrix

/-- The value stored for a level in a dictionary (keys are distinct in a Python dictionary); zero when absent. -/
def lookupC (items : List (ℤ × ℂ)) (k : ℤ) : ℂ := ((items.find? fun p => p.1 = k).map Prod.snd).getD 0

theorem innerProd_self {d : ℕ} (k : Ket d) : innerProd k = ((∑ i, ‖k i 0‖ ^ 2 : ℝ) : ℂ) := by
  simp only [innerProd, Option.getD_none, Matrix.trace, Matrix.diag_apply, Fin.sum_univ_one, Matrix.mul_apply]
  push_cast
  apply Finset.sum_congr rfl
  intro i _
  simp only [hc, Matrix.map_apply, Matrix.transpose_apply]
  rw [mul_comm, Complex.mul_conj, Complex.normSq_eq_norm_sq]
  push_cast; rfl

theorem ketNorm_sq {d : ℕ} (k : Ket d) : ketNorm k ^ 2 = ∑ i, ‖k i 0‖ ^ 2 := by
  rw [ketNorm, innerProd_self, Complex.ofReal_re, Real.sq_sqrt (Finset.sum_nonneg fun i _ => by positivity)]

/-- Squared norm used by the statements. -/
def IsUnit {d : ℕ} (k : Ket d) : Prop := ∑ i, ‖k i 0‖ ^ 2 = 1

/-- What `normalise` does to a ket, in all dimensions: it returns a unit vector proportional to its argument, or fails exactly
for the zero vector. -/
theorem normaliseKet_spec {d : ℕ} (k : Ket d) :
    (normaliseKet k = none ↔ k = 0) ∧
    ∀ u, normaliseKet k = some u → IsUnit u ∧ (∃ c : ℂ, c ≠ 0 ∧ u = c • k) := by
  have hz : ketNorm k = 0 ↔ k = 0 := by
    constructor
    · intro h
      have h2 := ketNorm_sq k
      rw [h] at h2
      have h3 : ∑ i, ‖k i 0‖ ^ 2 = 0 := by rw [← h2]; ring
      have := (Finset.sum_eq_zero_iff_of_nonneg (fun i _ => by positivity)).mp h3
      ext i j
      obtain rfl : j = 0 := Subsingleton.elim _ _
      have hi := this i (Finset.mem_univ i)
      simpa using hi
    · rintro rfl
      simp [ketNorm, innerProd]
  by_cases hd : d = 1
  · subst hd
    have key : (∑ i, k i 0 = 0) ↔ k = 0 := by
      rw [Fin.sum_univ_one]
      constructor
      · intro h; ext i j
        obtain rfl : j = 0 := Subsingleton.elim _ _
        obtain rfl : i = 0 := Subsingleton.elim _ _
        simpa using h
      · rintro rfl; rfl
    simp only [normaliseKet, ne_eq, not_true_eq_false, if_false]
    constructor
    · split_ifs with h
      · simp [key.mp h]
      · simp only [false_iff]; intro h'; exact h (key.mpr h')
    · intro u hu
      split_ifs at hu with h
      simp only [Option.some.injEq] at hu
      subst hu
      have h0 : k 0 0 ≠ 0 := by simpa [Fin.sum_univ_one] using h
      refine ⟨?_, _, one_div_ne_zero h, rfl⟩
      simp [IsUnit, h0]
  · simp only [normaliseKet, ne_eq, hd, not_false_eq_true, if_true]
    constructor
    · split_ifs with h
      · simp [hz.mp h]
      · simp only [false_iff]; intro h'; exact h (hz.mpr h')
    · intro u hu
      split_ifs at hu with h
      simp only [Option.some.injEq] at hu
      subst hu
      refine ⟨?_, _, one_div_ne_zero (by exact_mod_cast h), rfl⟩
      unfold IsUnit
      simp only [Matrix.smul_apply, smul_eq_mul, norm_mul, mul_pow]
      rw [← Finset.mul_sum, ← ketNorm_sq]
      have hn : ‖(1 / (ketNorm k : ℂ) : ℂ)‖ = 1 / ketNorm k := by
        rw [norm_div, norm_one, Complex.norm_real, Real.norm_of_nonneg (show 0 ≤ ketNorm k from Real.sqrt_nonneg _)]
      rw [hn]; field_simp

theorem dedupKeys_nodup (ns : List ℤ) : (dedupKeys ns).Nodup := by
  induction ns with
  | nil => simp [dedupKeys]
  | cons k ks ih =>
    rw [dedupKeys, List.nodup_cons]
    exact ⟨by simp, ih.filter _⟩

theorem mem_dedupKeys (ns : List ℤ) (k : ℤ) : k ∈ dedupKeys ns ↔ k ∈ ns := by
  induction ns with
  | nil => simp [dedupKeys]
  | cons a ks ih =>
    rw [dedupKeys, List.mem_cons, List.mem_filter, ih, List.mem_cons]
    by_cases h : k = a <;> simp [h]

theorem mapM_option_eq_some {α β : Type*} (f : α → Option β) :
    ∀ (l : List α) (r : List β), l.mapM f = some r ↔ List.Forall₂ (fun a b => f a = some b) l r := by
  intro l
  induction l with
  | nil => intro r; cases r <;> simp
  | cons a l ih =>
    intro r
    rw [List.mapM_cons]
    cases hf : f a with
    | none =>
      cases r with
      | nil => simp [hf]
      | cons b r => simp [hf]
    | some b =>
      cases hl : l.mapM f with
      | none =>
        cases r with
        | nil => simp
        | cons c r =>
          simp only [Option.bind_eq_bind, Option.bind_some, Option.bind_none, List.forall₂_cons, hf, ← ih, hl]
          simp
      | some s =>
        cases r with
        | nil => simp
        | cons c r =>
          simp only [Option.bind_eq_bind, Option.bind_some, List.forall₂_cons, hf, ← ih, hl]
          simp [pure]

/-- The vector before normalisation. -/
theorem superPos_sum {d : ℕ} (items : List (ℤ × ℂ)) (hnd : (items.map Prod.fst).Nodup) (bs : List (Ket d))
    (hb : items.mapM (fun p => basisOpt d p.1) = some bs) :
    (∀ p ∈ items, 0 ≤ p.1 ∧ p.1 < d) ∧
    ∀ i : Fin d, (((items.map Prod.snd).zip bs).map fun p => p.1 • p.2).sum i 0 = lookupC items (i : ℕ) := by
  rw [mapM_option_eq_some] at hb
  induction hb with
  | nil => simp [lookupC]
  | @cons p b l r hp hr ih =>
    rw [List.map_cons, List.nodup_cons] at hnd
    obtain ⟨h1, h2⟩ := ih hnd.2
    have hrange : 0 ≤ p.1 ∧ p.1 < d := by
      by_contra hcon
      simp [basisOpt, hcon] at hp
    have hbas : b = basis d p.1.toNat := by
      simp only [basisOpt, hrange, and_self, if_true, Option.some.injEq] at hp; exact hp.symm
    refine ⟨fun q hq => ?_, fun i => ?_⟩
    · rcases List.mem_cons.mp hq with rfl | hq
      · exact hrange
      · exact h1 q hq
    · rw [List.map_cons, List.zip_cons_cons, List.map_cons, List.sum_cons, Matrix.add_apply, h2 i]
      simp only [Matrix.smul_apply, smul_eq_mul, hbas, basis, Matrix.of_apply]
      by_cases hk : p.1 = (i : ℕ)
      · have e1 : (i : ℕ) = p.1.toNat := by omega
        have e2 : lookupC l (i : ℕ) = 0 := by
          rw [lookupC, List.find?_eq_none.mpr]; · rfl
          intro q hq hq'
          simp only [decide_eq_true_eq] at hq'
          exact hnd.1 (List.mem_map.mpr ⟨q, hq, by rw [hq', hk]⟩)
        rw [e2]
        simp [lookupC, hk]
      · have e1 : ¬ (i : ℕ) = p.1.toNat := by omega
        simp [lookupC, hk, e1]

/-- Core statement: for any dictionary of amplitudes the result is the unit vector proportional to it. -/
theorem superPos_core {d : ℕ} (e : Exc) (pop : Bool) (items : List (ℤ × ℂ)) (hi : superPosItems e pop = some items)
    (hnd : (items.map Prod.fst).Nodup) (u : Ket d) (h : superPos d e pop = some u) :
    IsUnit u ∧ ∃ c : ℂ, c ≠ 0 ∧ ∀ i : Fin d, u i 0 = c * lookupC items (i : ℕ) := by
  simp only [superPos, hi, Option.bind_eq_bind, Option.bind_some] at h
  cases hb : items.mapM (fun p => basisOpt d p.1) with
  | none => rw [hb] at h; simp at h
  | some bs =>
    rw [hb] at h
    simp only [Option.bind_some] at h
    have hsum := (superPos_sum items hnd bs hb).2
    cases hw : weightedSum bs (items.map Prod.snd) with
    | none => rw [hw] at h; simp at h
    | some s =>
      rw [hw] at h
      simp only [Option.bind_some] at h
      have hs : s = (((items.map Prod.snd).zip bs).map fun p => p.1 • p.2).sum := by
        unfold weightedSum at hw
        split at hw
        · simp at hw
        · simpa using hw.symm
      obtain ⟨h1, c, h2, h3⟩ := (normaliseKet_spec s).2 u h
      refine ⟨h1, c, h2, fun i => ?_⟩
      rw [h3, Matrix.smul_apply, smul_eq_mul, hs, hsum]

theorem unit_coeff {d : ℕ} (u : Ket d) (f : Fin d → ℂ) (c : ℂ) (hu : IsUnit u) (h : ∀ i, u i 0 = c * f i) (i : Fin d) :
    ‖u i 0‖ ^ 2 = ‖f i‖ ^ 2 / ∑ j, ‖f j‖ ^ 2 := by
  have : ‖c‖ ^ 2 * ∑ j, ‖f j‖ ^ 2 = 1 := by
    rw [← hu, Finset.mul_sum]
    apply Finset.sum_congr rfl
    intro j _; rw [h j, norm_mul, mul_pow]
  have hne : ∑ j, ‖f j‖ ^ 2 ≠ 0 := by
    intro h0; rw [h0] at this; simp at this
  rw [h i, norm_mul, mul_pow]
  field_simp
  linear_combination ‖f i‖ ^ 2 * this

/-- **C37 (populations).** With a dictionary of populations the result is a unit vector whose squared amplitude at every level
is the requested population divided by the sum of the requested populations, zero at the other levels. -/
theorem C37_populations {d : ℕ} (items : List (ℤ × ℂ)) (hnd : (items.map Prod.fst).Nodup) (u : Ket d)
    (h : superPos d (.dict items) = some u) :
    IsUnit u ∧ ∀ i : Fin d, ‖u i 0‖ ^ 2 = (lookupC items (i : ℕ)).re / ∑ j : Fin d, (lookupC items (j : ℕ)).re := by
  cases hi : superPosItems (.dict items) true with
  | none => simp [superPos, hi] at h
  | some amps =>
    have hi' := hi
    simp only [superPosItems, if_true] at hi'
    rw [mapM_option_eq_some] at hi'
    have hkeys : amps.map Prod.fst = items.map Prod.fst := by
      clear h hnd hi
      induction hi' with
      | nil => rfl
      | @cons p q l r hp _ ih =>
        simp only [List.map_cons, ih, List.cons.injEq, and_true]
        simp only [Option.map_eq_some_iff] at hp
        obtain ⟨c, _, rfl⟩ := hp; rfl
    have hval : ∀ k, ‖lookupC amps k‖ ^ 2 = (lookupC items k).re := by
      intro k
      clear h hnd hi hkeys
      induction hi' with
      | nil => simp [lookupC]
      | @cons p q l r hp _ ih =>
        simp only [Option.map_eq_some_iff] at hp
        obtain ⟨c, hc, rfl⟩ := hp
        by_cases hk : p.1 = k
        · simp only [lookupC, List.find?_cons, hk, decide_true, Option.map_some, Option.getD_some]
          unfold popSqrt at hc
          split_ifs at hc with hcond
          simp only [Option.some.injEq] at hc
          rw [← hc, Complex.norm_real, Real.norm_of_nonneg (Real.sqrt_nonneg _), Real.sq_sqrt hcond.2]
        · simp only [lookupC, List.find?_cons, hk, decide_false]
          exact ih
    obtain ⟨h1, c, _, h3⟩ := superPos_core (.dict items) true amps hi (by rw [hkeys]; exact hnd) u h
    refine ⟨h1, fun i => ?_⟩
    rw [unit_coeff u _ c h1 h3 i]
    simp only [hval]

/-- **C37 (amplitudes).** With coefficient input the amplitudes are proportional to the input. -/
theorem C37_amplitudes {d : ℕ} (items : List (ℤ × ℂ)) (hnd : (items.map Prod.fst).Nodup) (u : Ket d)
    (h : superPos d (.dict items) false = some u) :
    IsUnit u ∧ (∃ c : ℂ, c ≠ 0 ∧ ∀ i : Fin d, u i 0 = c * lookupC items (i : ℕ)) ∧
    ∀ i : Fin d, ‖u i 0‖ ^ 2 = ‖lookupC items (i : ℕ)‖ ^ 2 / ∑ j : Fin d, ‖lookupC items (j : ℕ)‖ ^ 2 := by
  obtain ⟨h1, c, h2, h3⟩ := superPos_core (.dict items) false items rfl hnd u h
  exact ⟨h1, ⟨c, h2, h3⟩, unit_coeff u _ c h1 h3⟩

theorem lookup_ones (ks : List ℤ) (k : ℤ) : lookupC (ks.map fun k => (k, 1)) k = if k ∈ ks then 1 else 0 := by
  induction ks with
  | nil => simp [lookupC]
  | cons a l ih =>
    by_cases h : a = k
    · simp [lookupC, h]
    · have h' : ¬ k = a := fun e => h e.symm
      simp only [List.map_cons, lookupC, List.find?_cons, h, decide_false, List.mem_cons, h', false_or]
      exact ih

/-- **C37 (lists).** With a list of integers all listed levels are equally populated and all others empty; repeated levels count
once. -/
theorem C37_list {d : ℕ} (ns : List ℤ) (pop : Bool) (u : Ket d) (h : superPos d (.list ns) pop = some u) :
    IsUnit u ∧ ∀ i : Fin d, ‖u i 0‖ ^ 2 =
      if ((i : ℕ) : ℤ) ∈ ns then (1 : ℝ) / ((Finset.univ.filter fun j : Fin d => ((j : ℕ) : ℤ) ∈ ns).card : ℝ) else 0 := by
  obtain ⟨h1, c, _, h3⟩ := superPos_core (.list ns) pop ((dedupKeys ns).map fun k => (k, 1)) rfl
    (by simpa [List.map_map, Function.comp_def] using dedupKeys_nodup ns) u h
  refine ⟨h1, fun i => ?_⟩
  rw [unit_coeff u _ c h1 h3 i]
  simp only [lookup_ones, mem_dedupKeys]
  have : ∑ j : Fin d, ‖(if ((j : ℕ) : ℤ) ∈ ns then (1 : ℂ) else 0)‖ ^ 2 =
      ((Finset.univ.filter fun j : Fin d => ((j : ℕ) : ℤ) ∈ ns).card : ℝ) := by
    rw [Finset.card_filter]
    push_cast
    apply Finset.sum_congr rfl
    intro j _; split_ifs <;> simp
  rw [this]
  split_ifs <;> simp

/-- **C37 (integer).** A single integer gives the basis state. -/
theorem C37_int (d : ℕ) (n : ℤ) (pop : Bool) (h0 : 0 ≤ n) (hn : n < d) : superPos d (.int n) pop = some (basis d n.toNat) := by
  have hlt : n.toNat < d := by omega
  have hsum : ∑ i : Fin d, ‖basis d n.toNat i 0‖ ^ 2 = 1 := by
    rw [Finset.sum_eq_single ⟨n.toNat, hlt⟩]
    · simp [basis]
    · intro j _ hj
      have : ¬ (j : ℕ) = n.toNat := fun h => hj (Fin.ext h)
      simp [basis, this]
    · simp
  simp only [superPos, superPosItems, Option.bind_eq_bind, Option.bind_some, List.mapM_cons, List.mapM_nil, basisOpt, h0, hn,
    and_self, if_true, weightedSum, List.map_cons, List.map_nil, List.zip_cons_cons, List.zip_nil_right, List.sum_cons,
    List.sum_nil, one_smul, add_zero, pure]
  unfold normaliseKet
  split_ifs with hd h1
  · have := ketNorm_sq (basis d n.toNat); rw [h1, hsum] at this; norm_num at this
  · have h2 := ketNorm_sq (basis d n.toNat)
    rw [hsum] at h2
    have h3 : ketNorm (basis d n.toNat) = 1 := by
      have h4 : 0 ≤ ketNorm (basis d n.toNat) := Real.sqrt_nonneg _
      nlinarith
    rw [h3]; simp
  · have : d = 1 := by simpa using hd
    subst this
    have : n = 0 := by omega
    subst this
    simp [basis]

/-- **C37 (errors).** Exactly the following coefficients are refused: nothing to superpose, a level outside the space, or all
amplitudes zero. -/
theorem C37_refused_iff (d : ℕ) (items : List (ℤ × ℂ)) (hnd : (items.map Prod.fst).Nodup) :
    superPos d (.dict items) false = none ↔
      (∃ p ∈ items, ¬ (0 ≤ p.1 ∧ p.1 < d)) ∨ (∀ p ∈ items, p.2 = 0) := by
  simp only [superPos, superPosItems, Bool.false_eq_true, if_false, Option.bind_eq_bind, Option.bind_some]
  cases hb : items.mapM (fun p => basisOpt d p.1) with
  | none =>
    simp only [Option.bind_none, true_iff]
    left
    by_contra hcon
    push Not at hcon
    have : ∃ bs : List (Ket d), items.mapM (fun p => basisOpt d p.1) = some bs := by
      refine ⟨items.map fun p => basis d p.1.toNat, ?_⟩
      rw [mapM_option_eq_some, List.forall₂_map_right_iff, List.forall₂_same]
      intro p hp
      simp [basisOpt, hcon p hp]
    rw [hb] at this; simp at this
  | some bs =>
    obtain ⟨hr, hs⟩ := superPos_sum items hnd bs hb
    have hlen : bs.length = items.length := by
      rw [mapM_option_eq_some] at hb; exact hb.length_eq.symm
    have hno : ¬ ∃ p ∈ items, ¬ (0 ≤ p.1 ∧ p.1 < (d : ℤ)) := by
      rintro ⟨p, hp, hq⟩; exact hq (hr p hp)
    simp only [Option.bind_some, hno, false_or]
    by_cases he : items = []
    · subst he; simp [weightedSum]
    · have hne : (items.map Prod.snd).zip bs ≠ [] := by
        cases items with
        | nil => exact absurd rfl he
        | cons p l =>
          cases bs with
          | nil => simp at hlen
          | cons b r => simp
      have hw : weightedSum bs (items.map Prod.snd) = some (((items.map Prod.snd).zip bs).map fun p => p.1 • p.2).sum := by
        unfold weightedSum
        split
        · rename_i h; exact absurd h hne
        · rfl
      rw [hw]
      simp only [Option.bind_some, (normaliseKet_spec _).1]
      constructor
      · intro h0 p hp
        have hp2 := hr p hp
        have := congrFun (congrFun h0 (⟨p.1.toNat, by omega⟩ : Fin d)) 0
        rw [hs] at this
        have hk : ((p.1.toNat : ℕ) : ℤ) = p.1 := by omega
        simp only [hk, Matrix.zero_apply] at this
        rw [← this, lookupC]
        have : items.find? (fun q => decide (q.1 = p.1)) = some p := by
          rw [List.find?_eq_some_iff_append]
          refine ⟨by simp, ?_⟩
          obtain ⟨as, bs', rfl⟩ := List.append_of_mem hp
          refine ⟨as, bs', rfl, fun a ha => ?_⟩
          rw [List.map_append, List.map_cons, List.nodup_append] at hnd
          simp only [Bool.not_eq_true', decide_eq_false_iff_not]
          exact hnd.2.2 a.1 (List.mem_map.mpr ⟨a, ha, rfl⟩) p.1 (by simp)
        rw [this]; rfl
      · intro h0
        ext i j
        obtain rfl : j = 0 := Subsingleton.elim _ _
        rw [hs, Matrix.zero_apply, lookupC]
        cases hf : items.find? (fun p => decide (p.1 = ((i : ℕ) : ℤ))) with
        | none => rfl
        | some p => simpa using h0 p (List.mem_of_find?_eq_some hf)

/-- **C37 (errors, lists).** A list is refused exactly if it is empty or has a level outside the space. -/
theorem C37_refused_list (d : ℕ) (ns : List ℤ) (pop : Bool) :
    superPos d (.list ns) pop = none ↔ ns = [] ∨ ∃ n ∈ ns, ¬ (0 ≤ n ∧ n < d) := by
  have e : superPos d (.list ns) pop = superPos d (.dict ((dedupKeys ns).map fun k => (k, 1))) false := rfl
  rw [e, C37_refused_iff d _ (by simpa [List.map_map, Function.comp_def] using dedupKeys_nodup ns)]
  constructor
  · rintro (⟨p, hp, h⟩ | h)
    · obtain ⟨k, hk, rfl⟩ := List.mem_map.mp hp
      exact Or.inr ⟨k, (mem_dedupKeys ns k).mp hk, h⟩
    · left
      cases ns with
      | nil => rfl
      | cons n l =>
        have := h (n, 1) (List.mem_map.mpr ⟨n, (mem_dedupKeys _ n).mpr (by simp), rfl⟩)
        simp at this
  · rintro (rfl | ⟨n, hn, h⟩)
    · right; simp [dedupKeys]
    · exact Or.inl ⟨(n, 1), List.mem_map.mpr ⟨n, (mem_dedupKeys ns n).mpr hn, rfl⟩, h⟩

/-- **C37 (errors, populations).** Populations are refused exactly if one is negative or not real, a level is outside the space, or there is
no population but zero. -/
theorem C37_refused_populations (d : ℕ) (items : List (ℤ × ℂ)) (hnd : (items.map Prod.fst).Nodup) :
    superPos d (.dict items) = none ↔ (∃ p ∈ items, ¬ (p.2.im = 0 ∧ 0 ≤ p.2.re)) ∨
      (∃ p ∈ items, ¬ (0 ≤ p.1 ∧ p.1 < d)) ∨ (∀ p ∈ items, p.2 = 0) := by
  by_cases hbad : ∃ p ∈ items, ¬ (p.2.im = 0 ∧ 0 ≤ p.2.re)
  · simp only [hbad, true_or, iff_true]
    cases hm : items.mapM (fun p => (popSqrt p.2).map fun c => (p.1, c)) with
    | none => simp [superPos, superPosItems, hm]
    | some amps =>
      exfalso
      rw [mapM_option_eq_some] at hm
      obtain ⟨p, hp, h⟩ := hbad
      clear hnd
      induction hm with
      | nil => cases hp
      | cons hq _ ih =>
        rcases List.mem_cons.mp hp with rfl | hp
        · simp [popSqrt, h] at hq
        · exact ih hp
  · simp only [hbad, false_or]
    push Not at hbad
    have hm : items.mapM (fun p => (popSqrt p.2).map fun c => (p.1, c)) =
        some (items.map fun p => (p.1, ((Real.sqrt p.2.re : ℝ) : ℂ))) := by
      rw [mapM_option_eq_some, List.forall₂_map_right_iff, List.forall₂_same]
      intro p hp
      simp [popSqrt, hbad p hp]
    have e : superPos d (.dict items) = superPos d (.dict (items.map fun p => (p.1, ((Real.sqrt p.2.re : ℝ) : ℂ)))) false := by
      simp only [superPos, superPosItems, if_true, hm, Bool.false_eq_true, if_false]
    rw [e, C37_refused_iff d _ (by simpa [List.map_map, Function.comp_def] using hnd)]
    apply or_congr
    · simp only [List.mem_map, exists_exists_and_eq_and]
    · simp only [List.forall_mem_map]
      refine forall₂_congr fun p hp => ?_
      obtain ⟨h1, h2⟩ := hbad p hp
      rw [Complex.ofReal_eq_zero, Real.sqrt_eq_zero h2]
      exact ⟨fun h => Complex.ext h h1, fun h => by rw [h]; rfl⟩

/-- Non-trivial instances. -/
example : ∃ u, superPos 3 (.list [0, 2, 0]) = some u := by
  cases h : superPos 3 (.list [0, 2, 0]) with
  | some u => exact ⟨u, rfl⟩
  | none =>
    have h2 := (C37_refused_iff 3 [(0, 1), (2, 1)] (by decide)).mp (by
      rw [← h]; simp [superPos, superPosItems, dedupKeys])
    rcases h2 with ⟨p, hp, hq⟩ | h2
    · simp only [List.mem_cons, List.not_mem_nil, or_false] at hp
      rcases hp with rfl | rfl <;> simp at hq
    · have := h2 (0, 1) (by simp); simp at this
example (u : Ket 3) (h : superPos 3 (.dict [(2, 3), (0, 1)]) = some u) : ‖u 2 0‖ ^ 2 = 3 / 4 ∧ ‖u 1 0‖ ^ 2 = 0 := by
  have := (C37_populations _ (by decide) u h).2
  rw [this, this]
  simp [lookupC, Fin.sum_univ_three]
  norm_num

end Verif.Toolbox
