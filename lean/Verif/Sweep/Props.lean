import Verif.Sweep.Lemmas2

/-!
# Properties C01, C02, C03 (parameter sweeps)
-/
namespace Verif.Sweep

/-- An exact division is a legitimate `FloatDiv`. -/
def exactDiv : FloatDiv := ⟨fun n a => n / a, fun _ _ _ _ _ => rfl⟩

/-! ## C01 -/

/-- **C01.** While the run counter goes through `range(indMultip)` the index lists computed by `_indicesForSweep` are the
index tuples of the nested loops over the sweeps in creation order (last created sweep fastest): each exactly once.
No float rounding matters as long as the number of runs is at most `2^53`. -/
theorem C01_indices_enumerate {α : Type} (fd : FloatDiv) (st : SweepState) (sweeps : List (SweepObj α))
    (hne : sweeps ≠ []) (hb : (axes sweeps).prod ≤ 2 ^ 53) :
    (List.range (prepare st sweeps).indMultip).map (fun ind => indicesForSweep fd ind (prepare st sweeps).inds)
      = (tuples (axes sweeps)).map some := by
  rw [prepare_inds st sweeps hne, prepare_multip st sweeps hne, ← map_idxOf_range, List.map_map]
  apply List.map_congr_left
  intro i hi
  exact indicesForSweep_eq fd _ i (List.mem_range.mp hi) hb

/-- **C01.** ... hence every admissible index tuple is visited exactly once and nothing else is visited. -/
theorem C01_each_combination_once {α : Type} (fd : FloatDiv) (st : SweepState) (sweeps : List (SweepObj α))
    (hne : sweeps ≠ []) (hb : (axes sweeps).prod ≤ 2 ^ 53) (t : List Nat) :
    ((List.range (prepare st sweeps).indMultip).map
        (fun ind => indicesForSweep fd ind (prepare st sweeps).inds)).Nodup ∧
    (some t ∈ (List.range (prepare st sweeps).indMultip).map
        (fun ind => indicesForSweep fd ind (prepare st sweeps).inds) ↔ ValidIdx (axes sweeps) t) ∧
    none ∉ (List.range (prepare st sweeps).indMultip).map
        (fun ind => indicesForSweep fd ind (prepare st sweeps).inds) := by
  rw [C01_indices_enumerate fd st sweeps hne hb]
  refine ⟨(nodup_tuples _).map (Option.some_injective _), ?_, by simp⟩
  rw [← mem_tuples]
  simp

example : (axes [⟨[10, 20], false⟩, ⟨[1, 2, 3], true⟩, ⟨[4, 5, 6], false⟩, ⟨[7], true⟩] : List Nat) = [2, 3, 1]
    ∧ ([2, 3, 1] : List Nat).prod ≤ 2 ^ 53
    ∧ tuples [2, 3, 1] = [[0,0,0],[0,1,0],[0,2,0],[1,0,0],[1,1,0],[1,2,0]] := by decide

/-! ## C03 -/

/-- **C01 (limit).** The bound on the number of runs is needed: with the rounding of IEEE doubles, `2^53 + 1` becoming `2^53`, two runs of a
sweep with `2^53 + 2` and 2 values use the same combination, and the last value of the first sweep is left out in one of them. -/
theorem C01_limit (fd : FloatDiv) (hround : fd.div (2 * (2 ^ 53 + 1)) 2 = 2 ^ 53) :
    indicesForSweep fd (2 * 2 ^ 53) [2, 2 ^ 53 + 2] = some [2 ^ 53, 0] ∧
    indicesForSweep fd (2 * (2 ^ 53 + 1)) [2, 2 ^ 53 + 2] = some [2 ^ 53, 0] := by
  have h := fd.exact (2 * 2 ^ 53) 2 (by norm_num) (by norm_num) (by norm_num)
  have e1 : (2 * 2 ^ 53 : Nat) % 2 = 0 := by norm_num
  have e2 : (2 * (2 ^ 53 + 1) : Nat) % 2 = 0 := by norm_num
  have e3 : (2 ^ 53 : Nat) % (2 ^ 53 + 2) = 2 ^ 53 := by norm_num
  have e4 : (2 * 2 ^ 53 : Nat) / 2 = 2 ^ 53 := by norm_num
  constructor
  · rw [indicesForSweep, indicesLoop, if_neg (by norm_num), e1]
    show indicesLoop fd (fd.div (2 * 2 ^ 53) 2) _ _ = _
    rw [h, e4, indicesLoop, if_neg (by norm_num), e3]
    rfl
  · rw [indicesForSweep, indicesLoop, if_neg (by norm_num), e2]
    show indicesLoop fd (fd.div (2 * (2 ^ 53 + 1)) 2) _ _ = _
    rw [hround, indicesLoop, if_neg (by norm_num), e3]
    rfl

/-- There is such a division: round to even above `2^53`. -/
example : ∃ fd : FloatDiv, fd.div (2 * (2 ^ 53 + 1)) 2 = 2 ^ 53 :=
  ⟨⟨fun n a => if n / a ≤ 2 ^ 53 then n / a else 4 * ((n / a + 1) / 4), fun n a _ _ h => if_pos h⟩, by norm_num⟩

/-- **C03 (positive part).** If the first sweep does not carry the `combinatorial` flag, then in the run of every valid
index tuple each sweep delivers its own value at the position of its axis, so simultaneous sweeps move in lockstep. -/
theorem C03_lockstep_partial {α : Type} (s : SweepObj α) (ss : List (SweepObj α)) (hs : s.comb = false)
    (hl : LongEnough (s :: ss)) (t : List Nat) (ht : ValidIdx (axes (s :: ss)) t) :
    ∃ vals, runSweep (s :: ss) t = some vals ∧ Delivers (s :: ss) t vals := by
  have hcount : ∀ j, 0 + ((s :: ss).take (j + 1)).countP (·.comb) = axisOf (s :: ss) j := by
    intro j; rw [axisOf_cons]; simp [hs]
  have hacc : ∀ j s', (s :: ss)[j]? = some s' →
      ∃ i, t[axisOf (s :: ss) j]? = some i ∧ i < s'.values.length := by
    intro j s' hj
    have hj' := (List.getElem?_eq_some_iff.mp hj).1
    have hax := axisOf_lt (s :: ss) j hj'
    have hlen : t.length = (axes (s :: ss)).length := ht.length_eq
    have hi := ht.get (i := axisOf (s :: ss) j) (by omega) hax
    refine ⟨t[axisOf (s :: ss) j], by rw [List.getElem?_eq_getElem], ?_⟩
    have := hl j s' hj _ (List.getElem?_eq_getElem hax)
    simp only [List.get_eq_getElem] at hi
    omega
  obtain ⟨vals, hv, hlen, hget⟩ := runSweepLoop_spec t 0 (s :: ss) (by
    intro j s' hj; rw [hcount]; exact hacc j s' hj)
  refine ⟨vals, hv, hlen, ?_⟩
  intro j s' hj
  have := hget j s' hj
  rwa [hcount] at this

example : LongEnough [⟨[10, 20], false⟩, ⟨[1, 2, 3], true⟩, ⟨[4, 5, 6, 9], false⟩] ∧
    ValidIdx (axes [⟨[10, 20], false⟩, ⟨[1, 2, 3], true⟩, ⟨[4, 5, 6, 9], false⟩]) [1, 2] ∧
    runSweep [⟨[10, 20], false⟩, ⟨[1, 2, 3], true⟩, ⟨[4, 5, 6, 9], false⟩] [1, 2] = some [20, 3, 6] := by
  refine ⟨?_, ?_, by decide⟩
  · intro j s hj n hn
    match j with
    | 0 => simp at hj; subst hj; simp [axes, axisOf] at hn; simp [← hn]
    | 1 => simp at hj; subst hj; simp [axes, axisOf] at hn; simp [← hn]
    | 2 => simp at hj; subst hj; simp [axes, axisOf] at hn; simp [← hn]
    | j + 3 => simp at hj
  · exact .cons (by decide) (.cons (by decide) .nil)

/-- **C03 (negation).** If the *first* sweep is created with `combinatorial=True`, no index list that the run loop can
produce works: `Sweep.runSweep` always raises IndexError. -/
theorem C03_first_combinatorial_always_fails {α : Type} (s : SweepObj α) (ss : List (SweepObj α)) (hs : s.comb = true)
    (t : List Nat) (ht : ValidIdx (axes (s :: ss)) t) : runSweep (s :: ss) t = none := by
  apply runSweepLoop_none
  · simp [hs]
  · rw [List.Forall₂.length_eq ht]
    simp [axes, hs, ← List.countP_eq_length_filter]

/-- **C03 (negation), whole run.** Consequently the whole simulation run fails for every non-empty sweep whose first
member has the flag set. -/
theorem C03_first_combinatorial_run_fails {α β : Type} (fd : FloatDiv) (s : SweepObj α) (ss : List (SweepObj α))
    (store : List α → PyVal β) (hs : s.comb = true) (hpos : 0 < (axes (s :: ss)).prod)
    (hb : (axes (s :: ss)).prod ≤ 2 ^ 53) : runAll fd (s :: ss) store = none := by
  have h0 : sweepPoint fd (prepare {} (s :: ss)) (s :: ss) 0 = none := by
    simp only [sweepPoint, prepare_inds _ _ (List.cons_ne_nil s ss)]
    rw [indicesForSweep_eq fd _ 0 hpos hb]
    simp only [C03_first_combinatorial_always_fails s ss hs _ (idxOf_valid _ 0 hpos)]
    simp [axes]
  simp only [runAll]
  rw [prepare_multip _ _ (List.cons_ne_nil s ss)]
  obtain ⟨n, hn⟩ : ∃ n, (axes (s :: ss)).prod = n + 1 := ⟨_, (Nat.succ_pred_eq_of_pos hpos).symm⟩
  rw [hn, List.range_succ_eq_map]
  simp [collectRuns, h0]

example : (⟨[1, 2], true⟩ : SweepObj Nat).comb = true ∧ 0 < (axes [(⟨[1, 2], true⟩ : SweepObj Nat)]).prod ∧
    runAll exactDiv [(⟨[1, 2], true⟩ : SweepObj Nat)] (fun v => PyVal.list (v.map .atom)) = none := by
  decide

theorem runSweepLoop_inv {α : Type} (t : List Nat) (sw : List (SweepObj α)) : ∀ (k : Nat) (vals : List α), runSweepLoop t k sw = some vals →
    ∀ j s, sw[j]? = some s → ∃ i, t[k + (sw.take (j + 1)).countP (·.comb)]? = some i ∧ i < s.values.length := by
  induction sw with
  | nil => intro k vals _ j s hj; simp at hj
  | cons x xs ih =>
    intro k vals h j s hj
    unfold runSweepLoop at h
    dsimp only at h
    cases h1 : t[if x.comb then k + 1 else k]? with
    | none => rw [h1] at h; cases h
    | some i =>
      rw [h1] at h
      have h : (match x.values[i]? with
        | none => none
        | some v => match runSweepLoop t (if x.comb then k + 1 else k) xs with
          | none => none
          | some vs => some (v :: vs)) = some vals := h
      cases h2 : x.values[i]? with
      | none => rw [h2] at h; cases h
      | some v =>
        rw [h2] at h
        have h : (match runSweepLoop t (if x.comb then k + 1 else k) xs with
          | none => none
          | some vs => some (v :: vs)) = some vals := h
        cases h3 : runSweepLoop t (if x.comb then k + 1 else k) xs with
        | none => rw [h3] at h; cases h
        | some vs =>
          cases j with
          | zero =>
            simp only [List.getElem?_cons_zero, Option.some.injEq] at hj
            subst hj
            refine ⟨i, ?_, (List.getElem?_eq_some_iff.mp h2).1⟩
            rw [← h1]
            cases hc : x.comb <;> simp [hc]
          | succ j =>
            obtain ⟨i', h4, h5⟩ := ih _ _ h3 j s (by simpa using hj)
            refine ⟨i', ?_, h5⟩
            rw [← h4]
            cases hc : x.comb
            · simp [hc]
            · simp only [if_true, List.take_succ_cons, List.countP_cons, hc]
              congr 1
              omega

/-- **C03 (when a point raises).** If the first sweep does not carry the flag, the run of a valid index tuple raises exactly if one of the
sweeps has no value at the position of its axis. -/
theorem C03_point_iff {α : Type} (s : SweepObj α) (ss : List (SweepObj α)) (hs : s.comb = false) (t : List Nat)
    (ht : ValidIdx (axes (s :: ss)) t) : runSweep (s :: ss) t = none ↔
      ∃ j s' i, (s :: ss)[j]? = some s' ∧ t[axisOf (s :: ss) j]? = some i ∧ s'.values.length ≤ i := by
  have hcount : ∀ j, 0 + ((s :: ss).take (j + 1)).countP (·.comb) = axisOf (s :: ss) j := by
    intro j; rw [axisOf_cons]; simp [hs]
  constructor
  · intro h
    by_contra hne
    have hacc : ∀ j s', (s :: ss)[j]? = some s' → ∃ i, t[axisOf (s :: ss) j]? = some i ∧ i < s'.values.length := by
      intro j s' hj
      have hj' := (List.getElem?_eq_some_iff.mp hj).1
      have hax := axisOf_lt (s :: ss) j hj'
      have hlen : t.length = (axes (s :: ss)).length := ht.length_eq
      have e : t[axisOf (s :: ss) j]? = some t[axisOf (s :: ss) j] := by rw [List.getElem?_eq_getElem]
      refine ⟨_, e, ?_⟩
      by_contra hlt
      exact hne ⟨j, s', _, hj, e, by omega⟩
    obtain ⟨vals, hv, _⟩ := runSweepLoop_spec t 0 (s :: ss) (by
      intro j s' hj; rw [hcount]; exact hacc j s' hj)
    unfold runSweep at h
    rw [hv] at h
    cases h
  · rintro ⟨j, s', i, hj, hi, hle⟩
    cases h : runSweep (s :: ss) t with
    | none => rfl
    | some vals =>
      obtain ⟨i', h1, h2⟩ := runSweepLoop_inv t (s :: ss) 0 vals h j s' hj
      rw [hcount, hi] at h1
      injection h1 with h1
      omega

/-- **C03 (when all points work).** If the first sweep does not carry the flag and no axis is empty, every point works exactly if every list
is at least as long as its axis. -/
theorem C03_all_points_iff {α : Type} (s : SweepObj α) (ss : List (SweepObj α)) (hs : s.comb = false) (hpos : ∀ n ∈ axes (s :: ss), 0 < n) :
    (∀ t, ValidIdx (axes (s :: ss)) t → ∃ vals, runSweep (s :: ss) t = some vals) ↔ LongEnough (s :: ss) := by
  constructor
  · intro h j s' hj n hn
    by_contra hlt
    have hv : ValidIdx (axes (s :: ss)) ((axes (s :: ss)).map (· - 1)) := by
      unfold ValidIdx
      rw [List.forall₂_map_left_iff]
      exact List.forall₂_same.2 fun n hn => by have := hpos n hn; omega
    obtain ⟨vals, h1⟩ := h _ hv
    have := (C03_point_iff s ss hs _ hv).2 ⟨j, s', n - 1, hj, by simp [hn], by omega⟩
    rw [h1] at this
    cases this
  · intro hl t ht
    obtain ⟨vals, h, _⟩ := C03_lockstep_partial s ss hs hl t ht
    exact ⟨vals, h⟩

/-- **C03 (too short simultaneous list), two sweeps.** If the second sweep has fewer values than its axis, the first run without a value for it
raises IndexError. -/
theorem C03_short_list_fails {α : Type} (s s' : SweepObj α) (hs : s.comb = false) (hs' : s'.comb = false)
    (hlt : s'.values.length < s.values.length) :
    ValidIdx (axes [s, s']) [s'.values.length] ∧ runSweep [s, s'] [s'.values.length] = none := by
  refine ⟨by simp [ValidIdx, axes, hs', hlt], ?_⟩
  simp [runSweep, runSweepLoop, hs, hs', hlt]

example : (⟨[1], false⟩ : SweepObj Nat).values.length < (⟨[1, 2], false⟩ : SweepObj Nat).values.length := by decide

/-! ## C02 -/

theorem shown_unwrapSingle {β : Type} (v : PyVal β) : Shown v (unwrapSingle v) := by
  constructor
  · rintro x rfl; rfl
  · intro h
    match v with
    | .atom _ => rfl
    | .list [] => rfl
    | .list [x] => exact absurd rfl (h x)
    | .list (_ :: _ :: _) => rfl

/-- **C02.** Result nesting agrees with sweep order: for every valid index tuple `t` (in sweep creation order),
`results[t_1]...[t_k]` is what the run stored in which every sweep had the value selected by `t` (a stored one-element
list being replaced by its element). -/
theorem C02_results_at_index {α β : Type} (fd : FloatDiv) (s : SweepObj α) (ss : List (SweepObj α))
    (store : List α → PyVal β) (hs : s.comb = false) (hl : LongEnough (s :: ss))
    (hb : (axes (s :: ss)).prod ≤ 2 ^ 53) :
    ∃ r, runAll fd (s :: ss) store = some r ∧
      ∀ t, ValidIdx (axes (s :: ss)) t → ∃ vals shown, Delivers (s :: ss) t vals ∧
        nestedGet r t = some shown ∧ Shown (store vals) shown := by
  have hne : (s :: ss) ≠ [] := List.cons_ne_nil s ss
  have hpt : ∀ i, i < (axes (s :: ss)).prod → ∃ v, sweepPoint fd (prepare {} (s :: ss)) (s :: ss) i = some v ∧
      Delivers (s :: ss) (idxOf (axes (s :: ss)) i) v := by
    intro i hi
    obtain ⟨v, hv, hd⟩ := C03_lockstep_partial s ss hs hl _ (idxOf_valid _ i hi)
    refine ⟨v, ?_, hd⟩
    simp only [sweepPoint, prepare_inds _ _ hne]
    rw [indicesForSweep_eq fd _ i hi hb]
    simpa [axes] using hv
  obtain ⟨l, hl1, hl2, hl3⟩ := collectRuns_spec (sweepPoint fd (prepare {} (s :: ss)) (s :: ss)) store
    (List.range (axes (s :: ss)).prod) (fun i hi => (hpt i (List.mem_range.mp hi)).imp fun _ h => h.1)
  obtain ⟨r, hr1, hr2⟩ := reShape_spec l (axes (s :: ss)) (by simp [axes]) 0 (by simp [hl2])
  refine ⟨.list r, ?_, ?_⟩
  · simp only [runAll]
    rw [prepare_multip _ _ hne, hl1]
    simp only [finalise, prepare_inds _ _ hne, List.reverse_eq_nil_iff, List.reverse_reverse, hr1]
    simp [axes]
  · intro t ht
    obtain ⟨w, hw1, hw2⟩ := hr2 t ht
    have hf := flat_lt _ _ ht
    obtain ⟨v, hv1, hv2⟩ := hl3 (flat (axes (s :: ss)) t) (flat (axes (s :: ss)) t) (by simp [hf])
    obtain ⟨v', hv1', hd⟩ := hpt _ hf
    rw [hv1] at hv1'
    cases hv1'
    rw [idxOf_flat _ _ ht] at hd
    refine ⟨v, unwrapSingle (store v), hd, ?_, shown_unwrapSingle _⟩
    rw [Nat.zero_add, hv2] at hw1
    cases hw1
    exact hw2

/-- **C02 (no sweep).** Without sweeps there is one run and the result is what this run stored. -/
theorem C02_no_sweep {α β : Type} (fd : FloatDiv) (store : List α → PyVal β) :
    runAll fd ([] : List (SweepObj α)) store = some (store []) := by
  simp [runAll, prepare, collectRuns, sweepPoint, finalise, List.range_succ]

/-- The result of a run determines the run: if the function from parameters to stored results is injective (and never
stores a one-element list) the nested result at two different places is different whenever the delivered values are. -/
example : runAll exactDiv [(⟨[10, 20], false⟩ : SweepObj Nat), ⟨[1, 2, 3], true⟩] (fun v => PyVal.list (v.map .atom))
    = some (.list [.list [.list [.atom 10, .atom 1], .list [.atom 10, .atom 2], .list [.atom 10, .atom 3]],
                   .list [.list [.atom 20, .atom 1], .list [.atom 20, .atom 2], .list [.atom 20, .atom 3]]]) := by
  rfl

end Verif.Sweep
