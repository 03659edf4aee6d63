import Verif.Sweep.Lemmas
import Verif.Sweep.Spec

/-! Helper lemmas for the sweep properties, continued. -/
namespace Verif.Sweep

/-- Row-major position of an index tuple. -/
def flat : List Nat → List Nat → Nat
  | _ :: ns, i :: is => i * ns.prod + flat ns is
  | _, _ => 0

/-- The index tuple of run number `i` for axes `L`. -/
def idxOf (L : List Nat) (i : Nat) : List Nat := (digits i L.reverse).reverse

theorem idxOf_cons (n : Nat) (ns : List Nat) (i : Nat) :
    idxOf (n :: ns) i = (i / ns.prod % n) :: idxOf ns i := by
  simp [idxOf, digits_append, digits, List.prod_reverse]

theorem idxOf_add_mul (ns : List Nat) (q r : Nat) (h : r < ns.prod) :
    idxOf ns (q * ns.prod + r) = idxOf ns r := by
  unfold idxOf
  have := digits_add_mul q r ns.reverse (by simpa [List.prod_reverse] using h)
  rw [List.prod_reverse] at this
  rw [this]

theorem idxOf_mod (ns : List Nat) (i : Nat) (h : 0 < ns.prod) :
    idxOf ns i = idxOf ns (i % ns.prod) := by
  conv_lhs => rw [← Nat.div_add_mod' i ns.prod]
  exact idxOf_add_mul ns _ _ (Nat.mod_lt _ h)

theorem map_idxOf_range (L : List Nat) : (List.range L.prod).map (idxOf L) = tuples L := by
  induction L with
  | nil => simp [tuples, idxOf, digits]
  | cons n ns ih =>
    rw [List.prod_cons, range_mul, List.map_flatMap, tuples]
    rw [← ih]
    apply List.flatMap_congr
    intro q hq
    rw [List.map_map, List.map_map]
    apply List.map_congr_left
    intro r hr
    have hq' := List.mem_range.mp hq
    have hr' := List.mem_range.mp hr
    simp only [Function.comp]
    rw [idxOf_cons, idxOf_add_mul ns q r hr']
    congr 1
    rw [Nat.mul_comm, Nat.mul_add_div (by omega), Nat.div_eq_of_lt hr', Nat.add_zero, Nat.mod_eq_of_lt hq']

theorem mem_tuples (L t : List Nat) : t ∈ tuples L ↔ ValidIdx L t := by
  induction L generalizing t with
  | nil => simp [tuples, ValidIdx]
  | cons n ns ih =>
    simp only [tuples, List.mem_flatMap, List.mem_range, List.mem_map]
    constructor
    · rintro ⟨i, hi, u, hu, rfl⟩
      exact List.Forall₂.cons hi ((ih u).mp hu)
    · intro h
      cases h with
      | cons hi hu => exact ⟨_, hi, _, (ih _).mpr hu, rfl⟩

theorem nodup_tuples (L : List Nat) : (tuples L).Nodup := by
  induction L with
  | nil => simp [tuples]
  | cons n ns ih =>
    simp only [tuples]
    rw [List.nodup_flatMap]
    refine ⟨fun i _ => ih.map (fun a b h => by simpa using h), ?_⟩
    apply List.Pairwise.imp_of_mem _ List.nodup_range
    intro a b _ _ hab
    simp only [Function.onFun, List.disjoint_left, List.mem_map]
    rintro x ⟨u, _, rfl⟩ ⟨v, _, hv⟩
    simp at hv
    exact hab hv.1.symm

theorem idxOf_valid (L : List Nat) (i : Nat) (h : i < L.prod) : ValidIdx L (idxOf L i) := by
  rw [← mem_tuples, ← map_idxOf_range]
  exact List.mem_map_of_mem (List.mem_range.mpr h)

theorem flat_idxOf (L : List Nat) (i : Nat) (h : i < L.prod) : flat L (idxOf L i) = i := by
  induction L generalizing i with
  | nil => simp at h; simp [flat, h]
  | cons n ns ih =>
    rw [List.prod_cons] at h
    have hp : 0 < ns.prod := by
      rcases Nat.eq_zero_or_pos ns.prod with h0 | h0
      · simp [h0] at h
      · exact h0
    rw [idxOf_cons, flat, idxOf_mod ns i hp, ih _ (Nat.mod_lt _ hp)]
    rw [Nat.mod_eq_of_lt (Nat.div_lt_of_lt_mul (by rwa [Nat.mul_comm] at h))]
    exact Nat.div_add_mod' i ns.prod

theorem flat_lt (L t : List Nat) (h : ValidIdx L t) : flat L t < L.prod := by
  induction h with
  | nil => simp [flat]
  | @cons i n is ns hi _ ih =>
    simp only [flat, List.prod_cons]
    calc i * ns.prod + flat ns is < i * ns.prod + ns.prod := by omega
      _ = (i + 1) * ns.prod := by ring
      _ ≤ n * ns.prod := Nat.mul_le_mul_right _ hi

theorem idxOf_flat (L t : List Nat) (h : ValidIdx L t) : idxOf L (flat L t) = t := by
  induction h with
  | nil => simp [idxOf, digits]
  | @cons i n is ns hi hu ih =>
    have hf := flat_lt ns is hu
    simp only [flat]
    rw [idxOf_cons, idxOf_add_mul ns _ _ hf, ih]
    congr 1
    rw [Nat.mul_comm, Nat.mul_add_div (by omega), Nat.div_eq_of_lt hf, Nat.add_zero, Nat.mod_eq_of_lt hi]

theorem indicesForSweep_eq (fd : FloatDiv) (L : List Nat) (i : Nat) (h : i < L.prod) (hb : L.prod ≤ 2 ^ 53) :
    indicesForSweep fd i L.reverse = some (idxOf L i) := by
  unfold indicesForSweep
  rw [indicesLoop_eq fd i L.reverse [] (by simpa [List.prod_reverse] using h) (by omega)]
  simp [idxOf]

/-! ### reshape -/

theorem reShapeLeaf_spec {α : Type} (lis : List (PyVal α)) (n total : Nat) (h : total + n ≤ lis.length) :
    ∃ l, reShapeLeaf lis n total = some (l, total + n) ∧ l.length = n ∧
      ∀ i, i < n → ∃ v, lis[total + i]? = some v ∧ l[i]? = some (unwrapSingle v) := by
  induction n generalizing total with
  | zero => exact ⟨[], by simp [reShapeLeaf]⟩
  | succ n ih =>
    obtain ⟨l, hl, hlen, hget⟩ := ih (total + 1) (by omega)
    have hlt : total < lis.length := by omega
    refine ⟨unwrapSingle lis[total] :: l, ?_, by simp [hlen], ?_⟩
    · simp only [reShapeLeaf, List.getElem?_eq_getElem hlt, hl]
      simp; omega
    · intro i hi
      cases i with
      | zero => exact ⟨lis[total], by simp [hlt], by simp⟩
      | succ i =>
        obtain ⟨v, h1, h2⟩ := hget i (by omega)
        exact ⟨v, by rw [← h1]; congr 1; omega, by simpa using h2⟩

theorem repeatCollect_spec {α : Type} (f : Nat → Option (List (PyVal α) × Nat)) (p : Nat)
    (Q : Nat → List (PyVal α) → Prop) (n total bound : Nat) (hb : total + n * p ≤ bound)
    (hf : ∀ t, t + p ≤ bound → ∃ l, f t = some (l, t + p) ∧ Q t l) :
    ∃ l, repeatCollect f n total = some (l, total + n * p) ∧
      ∀ i, i < n → ∃ li, l[i]? = some (.list li) ∧ Q (total + i * p) li := by
  induction n generalizing total with
  | zero => exact ⟨[], by simp [repeatCollect]⟩
  | succ n ih =>
    have hb' : total + p + n * p ≤ bound := by rw [Nat.succ_mul] at hb; omega
    obtain ⟨l0, h0, hq0⟩ := hf total (by omega)
    obtain ⟨l, hl, hget⟩ := ih (total + p) hb'
    refine ⟨.list l0 :: l, ?_, ?_⟩
    · simp only [repeatCollect, h0, hl]
      simp [Nat.succ_mul]; omega
    · intro i hi
      cases i with
      | zero => exact ⟨l0, by simp, by simpa using hq0⟩
      | succ i =>
        obtain ⟨li, h1, h2⟩ := hget i (by omega)
        refine ⟨li, by simpa using h1, ?_⟩
        rw [Nat.succ_mul]
        rw [show total + (i * p + p) = total + p + i * p by omega]
        exact h2

theorem reShape_spec {α : Type} (lis : List (PyVal α)) (L : List Nat) (hne : L ≠ []) (total : Nat)
    (h : total + L.prod ≤ lis.length) :
    ∃ l, reShape lis L total = some (l, total + L.prod) ∧
      ∀ t, ValidIdx L t → ∃ v, lis[total + flat L t]? = some v ∧
        nestedGet (.list l) t = some (unwrapSingle v) := by
  induction L generalizing total with
  | nil => exact absurd rfl hne
  | cons n ns ih =>
    cases ns with
    | nil =>
      simp only [List.prod_cons, List.prod_nil, Nat.mul_one] at h
      obtain ⟨l, h1, _, h3⟩ := reShapeLeaf_spec lis n total h
      refine ⟨l, by simpa [reShape] using h1, ?_⟩
      intro t ht
      cases ht with
      | @cons i _ is _ hi hu =>
        cases hu
        obtain ⟨v, hv1, hv2⟩ := h3 i hi
        exact ⟨v, by simpa [flat] using hv1, by simp [nestedGet, hv2]⟩
    | cons m rest =>
      have hp : total + n * (m :: rest).prod ≤ lis.length := by
        rw [List.prod_cons] at h; exact h
      obtain ⟨l, h1, h2⟩ := repeatCollect_spec (reShape lis (m :: rest)) (m :: rest).prod
        (fun tot l => ∀ t, ValidIdx (m :: rest) t → ∃ v, lis[tot + flat (m :: rest) t]? = some v ∧
          nestedGet (.list l) t = some (unwrapSingle v)) n total lis.length hp
        (fun t ht => ih (by simp) t ht)
      refine ⟨l, by simpa [reShape] using h1, ?_⟩
      intro t ht
      cases ht with
      | @cons i _ is _ hi hu =>
        obtain ⟨li, hl1, hl2⟩ := h2 i hi
        obtain ⟨v, hv1, hv2⟩ := hl2 is hu
        refine ⟨v, ?_, ?_⟩
        · rw [← hv1]; congr 1; simp [flat]; ring
        · simp only [nestedGet, hl1]; exact hv2

/-! ### lockstep -/

theorem prepare_inds {α : Type} (st : SweepState) (sweeps : List (SweepObj α)) (h : sweeps ≠ []) :
    (prepare st sweeps).inds = (axes sweeps).reverse := by
  cases sweeps with
  | nil => exact absurd rfl h
  | cons s ss => rw [prepare_cons]; rfl

theorem prepare_multip {α : Type} (st : SweepState) (sweeps : List (SweepObj α)) (h : sweeps ≠ []) :
    (prepare st sweeps).indMultip = (axes sweeps).prod := by
  cases sweeps with
  | nil => exact absurd rfl h
  | cons s ss => rw [prepare_cons_multip, prepare_cons, List.prod_reverse]; rfl

/-- `runSweepLoop` succeeds when every access is in range. -/
theorem runSweepLoop_spec {α : Type} (t : List Nat) (k : Nat) (ss : List (SweepObj α))
    (h : ∀ j s, ss[j]? = some s → ∃ i, t[k + (ss.take (j + 1)).countP (·.comb)]? = some i ∧ i < s.values.length) :
    ∃ vals, runSweepLoop t k ss = some vals ∧ vals.length = ss.length ∧
      ∀ j s, ss[j]? = some s → ∃ i, t[k + (ss.take (j + 1)).countP (·.comb)]? = some i ∧
        vals[j]? = s.values[i]? ∧ i < s.values.length := by
  induction ss generalizing k with
  | nil => exact ⟨[], by simp [runSweepLoop]⟩
  | cons s ss ih =>
    obtain ⟨i, hi, hlt⟩ := h 0 s (by simp)
    have hk : (k + ((s :: ss).take 1).countP (·.comb)) = if s.comb then k + 1 else k := by
      cases hs : s.comb <;> simp [hs]
    rw [hk] at hi
    have hsh : ∀ j, k + ((s :: ss).take (j + 1 + 1)).countP (·.comb)
        = (if s.comb then k + 1 else k) + (ss.take (j + 1)).countP (·.comb) := by
      intro j
      cases hs : s.comb <;> simp [hs]; omega
    obtain ⟨vals, hv, hlen, hget⟩ := ih (if s.comb then k + 1 else k) (by
      intro j s' hj
      have := h (j + 1) s' (by simpa using hj)
      rwa [hsh j] at this)
    refine ⟨s.values[i] :: vals, ?_, by simp [hlen], ?_⟩
    · simp only [runSweepLoop]
      rw [hi]
      simp only [List.getElem?_eq_getElem hlt, hv]
    · intro j s' hj
      cases j with
      | zero =>
        simp only [List.getElem?_cons_zero, Option.some.injEq] at hj
        subst hj
        refine ⟨i, by rw [hk]; exact hi, by simp [hlt], hlt⟩
      | succ j =>
        obtain ⟨i', h1, h2, h3⟩ := hget j s' (by simpa using hj)
        exact ⟨i', by rw [hsh j]; exact h1, by simpa using h2, h3⟩

/-- `runSweepLoop` fails as soon as the running axis number can run past the end of the index list. -/
theorem runSweepLoop_none {α : Type} (t : List Nat) (k : Nat) (ss : List (SweepObj α)) (hne : 0 < ss.countP (·.comb))
    (h : t.length ≤ k + ss.countP (·.comb)) : runSweepLoop t k ss = none := by
  induction ss generalizing k with
  | nil => simp at hne
  | cons s ss ih =>
    simp only [runSweepLoop]
    split
    · rfl
    · rename_i i hi
      split
      · rfl
      · have hlt : (if s.comb then k + 1 else k) < t.length := (List.getElem?_eq_some_iff.mp hi).1
        have : runSweepLoop t (if s.comb then k + 1 else k) ss = none := by
          apply ih
          · cases hs : s.comb
            · simpa [hs] using hne
            · simp [hs] at h hlt; omega
          · cases hs : s.comb
            · simpa [hs] using h
            · simp [hs] at h ⊢; omega
        simp [this]

theorem axisOf_cons {α : Type} (s : SweepObj α) (ss : List (SweepObj α)) (j : Nat) :
    axisOf (s :: ss) j = (ss.take j).countP (·.comb) := by
  simp [axisOf]

theorem axisOf_lt {α : Type} (sweeps : List (SweepObj α)) (j : Nat) (h : j < sweeps.length) :
    axisOf sweeps j < (axes sweeps).length := by
  cases sweeps with
  | nil => simp at h
  | cons s ss =>
    rw [axisOf_cons]
    simp only [axes, List.length_cons, List.length_map, ← List.countP_eq_length_filter]
    have := (List.take_sublist j ss).countP_le (p := (·.comb))
    omega

theorem collectRuns_spec {α β : Type} (point : Nat → Option (List α)) (store : List α → PyVal β) (l : List Nat)
    (h : ∀ i ∈ l, ∃ v, point i = some v) :
    ∃ r, collectRuns point store l = some r ∧ r.length = l.length ∧
      ∀ (k i : Nat), l[k]? = some i → ∃ v, point i = some v ∧ r[k]? = some (store v) := by
  induction l with
  | nil => exact ⟨[], by simp [collectRuns]⟩
  | cons a l ih =>
    obtain ⟨v, hv⟩ := h a (by simp)
    obtain ⟨r, hr, hlen, hget⟩ := ih (fun i hi => h i (by simp [hi]))
    refine ⟨store v :: r, by simp [collectRuns, hv, hr], by simp [hlen], ?_⟩
    intro k i hk
    cases k with
    | zero => simp at hk; subst hk; exact ⟨v, hv, by simp⟩
    | succ k => simpa using hget k i (by simpa using hk)

end Verif.Sweep
