import Verif.Old.Model

/-!
# C71: positions and dimensions in the older classes
-/
namespace Verif.Old
open Verif.Tree Verif.Tree.Sys

/-! ### Adding systems

`__addSub` is the function of the newer class (`Verif.Tree.Sys.addSub`), so its properties carry over. -/

/-- **C71.** Adding a stand-alone system, single or composite, to an outermost composite. -/
theorem C71_addition {p c : Sys} (hsp : Shape p) (hp : Positions p) (hsc : Shape c) (hc : Positions c) (hk : p.kind = some true) :
    ∃ p', addSub p c = some p' ∧ Positions p' ∧ Shape p' ∧ dims p' = dims p ++ dims c := C26_addition hsp hp hsc hc hk

/-- **C71 is false of the code**: a composite that is inside another one with something of dimension two or more beside it cannot be
grown. -/
theorem C71_nested_growth {t q c : Sys} {p : List Nat} (hs : Shape t) (ht : Positions t) (hsc : Shape c) (hc : Positions c)
    (hg : sysAt t p = some q) (hk : q.kind = some true) (d : Nat) (hd : d ∈ leftOf t p ++ rightOf t p) (h2 : 2 ≤ d) :
    ∃ t', modifyAt (fun s => addSub s c) p t = some t' ∧ ¬ Positions t' := C27_not_consistent hs ht hsc hc hg hk d hd h2

/-- **C71 is false of the code**: when a composite grows, the composites around it keep the dimension they have cached: their `dimension`
is wrong after that whenever it was read before and the new system has dimension two or more. -/
theorem C71_cached_dimension {t q c : Sys} {p : List Nat} (hs : Shape t) (hsc : Shape c) (hg : sysAt t p = some q)
    (hk : q.kind = some true) (h2 : 2 ≤ c.dimension) : ∃ t', modifyAt (fun s => addSub s c) p t = some t' ∧
      t'.dimension = t.dimension * c.dimension ∧ cachedDim (some t.dimension) t' ≠ t'.dimension ∧
      cachedDim none t' = t'.dimension := by
  obtain ⟨q', hq', -, hdq, -⟩ := addSub_composite q c (by simp [hk])
  obtain ⟨t', h⟩ := modifyAt_total (fun s => addSub s c) p t q q' hg hq'
  obtain ⟨q₁, q₂, h1, h2', h3⟩ := sysAt_modifyAt _ p t t' h
  obtain rfl := Option.some.inj (hg.symm.trans h1)
  obtain rfl := Option.some.inj (hq'.symm.trans h2')
  have e1 := dims_modifyAt _ p t t' q' hs h h3
  have e0 := dims_modifyAt some p t t q hs (modifyAt_some p t q hg) hg
  have e : t'.dimension = t.dimension * c.dimension := by
    rw [dimension_eq t', dimension_eq t, dimension_eq c, e1, e0, hdq hk]
    simp only [List.prod_append]
    ring
  refine ⟨t', h, e, ?_, rfl⟩
  have hp := shape_dimension_pos t hs
  simp only [cachedDim, Option.getD_some]
  rw [e]
  intro h
  nlinarith

theorem get_shape : ∀ (p : List ℕ) (t q : Sys), Shape t → sysAt t p = some q → Shape q
  | [], t, q, hs, h => by
    cases t
    simp only [sysAt, Option.some.injEq] at h
    exact h ▸ hs
  | i :: p, node k d b a s, q, hs, h => by
    cases hx : s[i]? with
    | none => simp [sysAt, hx] at h
    | some x =>
      simp only [sysAt, hx] at h
      unfold Shape at hs
      have hk : k = some true := by
        by_contra hk
        rw [(hs.2 hk).1] at hx
        simp at hx
      exact get_shape p x q (shapeL_mem s (hs.1 hk) x (List.mem_of_getElem? hx)) h

/-! ### Changing a dimension -/

theorem setDimOld_one (d i : ℕ) (t q : Sys) (hs : Shape t) (hg : sysAt t [i] = some q) (hk : q.kind = some false) (hd : d ≠ 0) :
    ∃ t', setDimOld d [i] t = some (t', q.dimension) ∧ setDim d [i] t = some (t', some q.dimension) := by
  cases t with
  | node k d₀ b a s =>
    cases hx : s[i]? with
    | none => simp [sysAt, hx] at hg
    | some x =>
      simp only [sysAt, hx, Option.some.injEq] at hg
      subst hg
      cases x with
      | node kx dx bx ax sx =>
        simp only [kind] at hk
        subst hk
        have hsx : Shape (node (some false) dx bx ax sx) := get_shape [i] _ _ hs (by simp [sysAt, hx])
        unfold Shape at hsx
        have h0 : dx ≠ 0 := by have := (hsx.2 (by simp)).2; omega
        refine ⟨node k d₀ b a (updateDim i d dx (s.set i (node (some false) d bx ax sx))), ?_, ?_⟩
        · simp [setDimOld, hx, h0, dimension]
        · simp [setDim, hx, hd, dimension]

theorem setDimOld_two (d i j : ℕ) (t q : Sys) (hs : Shape t) (hb : t.before = 1) (ha : t.after = 1) (hg : sysAt t [i, j] = some q)
    (hk : q.kind = some false) (hd : d ≠ 0) :
    ∃ t', setDimOld d [i, j] t = some (t', q.dimension) ∧ setDim d [i, j] t = some (t', some q.dimension) := by
  cases t with
  | node k d₀ b a s =>
    simp only [before, after] at hb ha
    subst hb ha
    cases hx : s[i]? with
    | none => simp [sysAt, hx] at hg
    | some c =>
      have hgc : sysAt c [j] = some q := by
        simp only [sysAt, hx] at hg
        exact hg
      have hsc : Shape c := get_shape [i] _ _ hs (by simp [sysAt, hx])
      obtain ⟨c', h1, h2⟩ := setDimOld_one d j c q hsc hgc hk hd
      have h0 : q.dimension ≠ 0 := by
        have := shape_dimension_pos q (get_shape [j] _ _ hsc hgc)
        omega
      refine ⟨node k d₀ 1 1 (updateDim i d q.dimension (s.set i c')), ?_, ?_⟩
      · rw [setDimOld]
        simp only [hx, h1, h0, if_false, updateAbove, ind]
        simp only [ne_eq, not_true_eq_false, or_self, if_false, reduceCtorEq, List.dropLast_cons_cons, List.dropLast_singleton,
          List.sum_cons, List.sum_nil, add_zero, updateDim]
        congr 3
        apply List.mapIdx_eq_mapIdx_iff.2
        intro n hn
        by_cases hni : n = i
        · subst hni; simp
        · simp [hni]
      · rw [setDim]
        simp only [hx, h2]

/-- **C71.** Setting the dimension of a single system in an outermost composite, or in a composite in an outermost composite: nothing is
raised, exactly that dimension changes, and the structure stays consistent.

Partial: at most two levels of composites (`C71_three_levels`). -/
theorem C71_dimension_partial {t q : Sys} {p : List Nat} (hs : Shape t) (ht : Positions t) (hp : p ≠ []) (hp2 : p.length ≤ 2)
    (hg : sysAt t p = some q) (hk : q.kind = some false) (d : ℕ) (hd : d ≠ 0) :
    ∃ t', setDimOld d p t = some (t', q.dimension) ∧ Positions t' ∧ Shape t' ∧
      dims t = leftOf t p ++ [q.dimension] ++ rightOf t p ∧ dims t' = leftOf t p ++ [d] ++ rightOf t p := by
  have h : ∃ t', setDimOld d p t = some (t', q.dimension) ∧ setDim d p t = some (t', some q.dimension) := by
    rcases p with _ | ⟨i, _ | ⟨j, _ | ⟨k, r⟩⟩⟩
    · exact absurd rfl hp
    · exact setDimOld_one d i t q hs hg hk hd
    · have h0 := ht [] t (by cases t; rfl)
      have e1 : leftOf t [] = [] := by cases t; rfl
      have e2 : rightOf t [] = [] := by cases t; rfl
      rw [e1, e2] at h0
      exact setDimOld_two d i j t q hs h0.1 h0.2.1 hg hk hd
    · simp at hp2
  obtain ⟨t', h1, h2⟩ := h
  obtain ⟨t'', o, h3, h4, h5, h6, h7, -⟩ := C26_dimension hs ht hg (by rw [hk]; simp) d hd
  obtain ⟨rfl, -⟩ := Prod.mk.inj (Option.some.inj (h2.symm.trans h3))
  exact ⟨t', h1, h4, h5, h6, h7⟩

/-- Two qubits, each in its own composite, both in a composite; that and a third qubit in the outermost composite. -/
def deep : Sys := node (some true) 1 1 1
  [node (some true) 1 1 2 [node (some true) 1 1 4 [node (some false) 2 1 4 []], node (some true) 1 2 2 [node (some false) 2 2 2 []]],
   node (some false) 2 4 1 []]

/-- **C71 is false of the code** with three levels: setting the dimension of the second qubit to three makes the composite around it
believe that three dimensions come after it, and the third qubit still has four dimensions before it instead of six. -/
theorem C71_three_levels : Shape deep ∧ Positions deep ∧ ∃ t', setDimOld 3 [0, 1, 0] deep = some (t', 2) ∧ ¬ Positions t' ∧
    (∃ y, sysAt t' [0] = some y ∧ y.after = 3 ∧ (rightOf t' [0]).prod = 2) ∧
    ∃ z, sysAt t' [1] = some z ∧ z.before = 4 ∧ (leftOf t' [1]).prod = 6 := by
  have hw : WF 1 1 deep := by simp [deep, WF, WFL, dimension, dimProd]
  refine ⟨((wf_iff deep).1 hw).1, ((wf_iff deep).1 hw).2, _, rfl, ?_, ⟨_, rfl, rfl, by decide⟩, _, rfl, rfl, by decide⟩
  intro h
  have := (h [1] _ rfl).1
  revert this
  decide

/-! ### Removing -/

theorem divideOut_eq (i x : ℕ) (s : List Sys) : divideOut i x s = updateDim i 1 x s := by
  simp [divideOut, updateDim]

/-- Removal of a direct sub-system, for a composite anywhere in a structure. -/
theorem removeTop_wf {L R d b a : ℕ} {l r : List Sys} {q : Sys} (hL : 0 < L) (hR : 0 < R)
    (hw : WF L R (node (some true) d b a (l ++ q :: r))) :
    ∃ t' x, removeTop l.length (node (some true) d b a (l ++ q :: r)) = some (t', x) ∧ WF L R t' ∧ t'.kind = some true ∧
      t'.dimension * q.dimension = (node (some true) d b a (l ++ q :: r)).dimension ∧ dims t' = dimsL l ++ dimsL r ∧
      WF 1 1 x ∧ dims x = dims q ∧ x.kind = q.kind := by
  unfold WF at hw
  obtain ⟨rfl, rfl, h1, -⟩ := hw
  have hs := h1 rfl
  rw [wfL_append] at hs
  simp only [WFL, dimProd] at hs
  obtain ⟨hl, hqw, hr⟩ := hs
  have hq := wf_pos hqw
  have hLl : 0 < b * dimProd l := Nat.mul_pos hL (wfL_pos hl)
  have hRr : 0 < dimProd r * a := Nat.mul_pos (wfL_pos hr) hR
  have e : (l ++ q :: r)[l.length]? = some q := by simp
  refine ⟨node (some true) d b a (l.map (fun s => setAfter (s.after * 1 / q.dimension) s) ++
    r.map (fun s => setBefore (s.before * 1 / q.dimension) s)), setBefore 1 (setAfter 1 q), ?_, ?_, rfl, ?_, ?_, ?_, ?_, ?_⟩
  · simp only [removeTop, e, true_and]
    rw [if_pos (by omega), divideOut_eq, updateDim_append, List.eraseIdx_append_of_length_le (by simp)]
    simp
  · unfold WF
    refine ⟨rfl, rfl, fun _ => ?_, fun hk => absurd rfl hk⟩
    rw [wfL_append]
    simp only [dimProd_mapAfter, dimProd_mapBefore]
    constructor
    · have := wfL_mapAfter l b (dimProd r * a) 1 q.dimension hq hRr
        (by rw [show dimProd r * a * q.dimension = q.dimension * dimProd r * a by ring]; exact hl)
      simpa using this
    · have := wfL_mapBefore r (b * dimProd l) a 1 q.dimension hq hLl (by simpa using hr)
      simpa using this
  · simp only [dimension, if_true, dimProd_append, dimProd_mapAfter, dimProd_mapBefore, dimProd]
    ring
  · have e1 : ∀ (s : List Sys) (f : Sys → ℕ), dimsL (s.map fun q => setAfter (f q) q) = dimsL s := by
      intro s f
      induction s with
      | nil => rfl
      | cons x y ih => simp [dimsL, ih, dims_setAfter]
    have e2 : ∀ (s : List Sys) (f : Sys → ℕ), dimsL (s.map fun q => setBefore (f q) q) = dimsL s := by
      intro s f
      induction s with
      | nil => rfl
      | cons x y ih => simp [dimsL, ih, dims_setBefore]
    simp only [dims, if_true, dimsL_append, e1, e2]
  · exact wf_setBefore _ _ _ _ hLl (wf_setAfter q _ _ 1 hRr hqw)
  · rw [dims_setBefore, dims_setAfter]
  · cases q; rfl

/-- **C71.** Removing a direct sub-system of an outermost composite, single or composite, leaves a consistent structure without exactly the
single systems in it; the removed one stands alone, with its own structure and dimensions as before. -/
theorem C71_removal {t q : Sys} {i : ℕ} (hs : Shape t) (ht : Positions t) (hg : sysAt t [i] = some q) :
    ∃ t' x, removeTop i t = some (t', x) ∧ Positions t' ∧ Shape t' ∧ dims t' = leftOf t [i] ++ rightOf t [i] ∧
      Positions x ∧ Shape x ∧ dims x = dims q ∧ x.before = 1 ∧ x.after = 1 := by
  have hw := (wf_iff t).2 ⟨hs, ht⟩
  cases t with
  | node k d b a s =>
    cases hx : s[i]? with
    | none => simp [sysAt, hx] at hg
    | some y =>
      have hgy : y = q := by simpa [sysAt, hx] using hg
      subst hgy
      have hk : k = some true := by
        unfold Shape at hs
        by_contra hk
        rw [(hs.2 hk).1] at hx
        simp at hx
      subst hk
      obtain ⟨l, r, rfl, rfl⟩ := split_at s i y hx
      obtain ⟨t', x, h1, h2, -, -, h4, h5, h6, -⟩ := removeTop_wf Nat.one_pos Nat.one_pos hw
      have h2' := (wf_iff t').1 h2
      have h5' := (wf_iff x).1 h5
      refine ⟨t', x, h1, h2'.2, h2'.1, ?_, h5'.2, h5'.1, h6, wf_before h5, wf_after h5⟩
      rw [h4]
      cases y
      simp [leftOf, rightOf]

theorem dimension_visit (i x n : ℕ) (y : Sys) : (visit i x n y).dimension = y.dimension := by
  cases y with
  | node ky dy b' a' sy =>
    rw [visit]
    split
    · split
      · exact dimension_setAfter _ _
      · split
        · exact dimension_setBefore _ _
        · rfl
    · rfl

theorem dims_visit (i x n : ℕ) (y : Sys) : dims (visit i x n y) = dims y := by
  cases y with
  | node ky dy b' a' sy =>
    rw [visit]
    split
    · split
      · exact dims_setAfter _ _
      · split
        · exact dims_setBefore _ _
        · rfl
    · rfl

theorem wf_visit_left {i x n L R : ℕ} {y : Sys} (hn : n < i) (hk : y.kind = some true) (hx : 0 < x) (hR : 0 < R)
    (h : WF L (R * x) y) : WF L R (visit i x n y) := by
  cases y with
  | node ky dy b a sy =>
    simp only [kind] at hk
    subst hk
    have ea : a = R * x := wf_after h
    rw [visit]
    by_cases hc : a ≠ 1 ∨ b ≠ 1
    · rw [if_pos ⟨rfl, hc⟩, if_pos hn, ea, Nat.mul_div_cancel _ hx]
      rw [ea] at h
      exact wf_setAfter _ _ _ _ (Nat.mul_pos hR hx) h
    · rw [if_neg (by tauto)]
      push Not at hc
      rw [hc.1] at ea
      have hx1 : x = 1 := Nat.eq_one_of_mul_eq_one_left ea.symm
      rw [hx1, mul_one] at h
      exact h

theorem wf_visit_right {i x n L R : ℕ} {y : Sys} (hn : i < n) (hk : y.kind = some true) (hx : 0 < x) (hL : 0 < L)
    (h : WF (L * x) R y) : WF L R (visit i x n y) := by
  cases y with
  | node ky dy b a sy =>
    simp only [kind] at hk
    subst hk
    have eb : b = L * x := wf_before h
    rw [visit]
    by_cases hc : a ≠ 1 ∨ b ≠ 1
    · rw [if_pos ⟨rfl, hc⟩, if_neg (by omega), if_pos hn, eb, Nat.mul_div_cancel _ hx]
      rw [eb] at h
      exact wf_setBefore _ _ _ _ (Nat.mul_pos hL hx) h
    · rw [if_neg (by tauto)]
      push Not at hc
      rw [hc.2] at eb
      have hx1 : x = 1 := Nat.eq_one_of_mul_eq_one_left eb.symm
      rw [hx1, mul_one] at h
      exact h

theorem visitL_dims (f : ℕ → Sys → Sys) (hf : ∀ n y, dims (f n y) = dims y) (s : List Sys) : dimsL (s.mapIdx f) = dimsL s := by
  induction s generalizing f with
  | nil => rfl
  | cons y s ih => rw [List.mapIdx_cons, dimsL, dimsL, hf, ih _ fun n y => hf (n + 1) y]

theorem visitL_prod (f : ℕ → Sys → Sys) (hf : ∀ n y, (f n y).dimension = y.dimension) (s : List Sys) :
    dimProd (s.mapIdx f) = dimProd s := by
  induction s generalizing f with
  | nil => rfl
  | cons y s ih => rw [List.mapIdx_cons, dimProd, dimProd, hf, ih _ fun n y => hf (n + 1) y]

theorem wfL_visit_left (i x : ℕ) (hx : 0 < x) (s : List Sys) (n₀ L R : ℕ) (hR : 0 < R) (hn : n₀ + s.length ≤ i)
    (hk : ∀ y ∈ s, y.kind = some true) (h : WFL L (R * x) s) : WFL L R (s.mapIdx fun n y => visit i x (n₀ + n) y) := by
  induction s generalizing n₀ L with
  | nil => simp [WFL]
  | cons y s ih =>
    simp only [WFL] at h
    simp only [List.length_cons] at hn
    rw [List.mapIdx_cons]
    simp only [WFL, dimension_visit]
    refine ⟨?_, ?_⟩
    · rw [visitL_prod _ (fun n y => dimension_visit _ _ _ _)]
      apply wf_visit_left (by omega) (hk y (by simp)) hx (Nat.mul_pos (wfL_pos h.2) hR)
      rw [mul_assoc]
      exact h.1
    · have := ih (n₀ + 1) _ (by omega) (fun z hz => hk z (by simp [hz])) h.2
      simpa only [add_assoc, add_comm 1] using this

theorem wfL_visit_right (i x : ℕ) (hx : 0 < x) (s : List Sys) (n₀ L R : ℕ) (hL : 0 < L) (hn : i < n₀)
    (hk : ∀ y ∈ s, y.kind = some true) (h : WFL (L * x) R s) : WFL L R (s.mapIdx fun n y => visit i x (n₀ + n) y) := by
  induction s generalizing n₀ L with
  | nil => simp [WFL]
  | cons y s ih =>
    simp only [WFL] at h
    rw [List.mapIdx_cons]
    simp only [WFL, dimension_visit]
    refine ⟨?_, ?_⟩
    · rw [visitL_prod _ (fun n y => dimension_visit _ _ _ _)]
      exact wf_visit_right (by omega) (hk y (by simp)) hx hL h.1
    · have := ih (n₀ + 1) (L * y.dimension) (Nat.mul_pos hL (wf_pos h.1)) (by omega) (fun z hz => hk z (by simp [hz]))
        (by rw [mul_right_comm]; exact h.2)
      simpa only [add_assoc, add_comm 1] using this

/-- **C71 is false of the code**: removing a system of dimension two or more from a composite inside an outermost composite leaves an
inconsistent structure as soon as the outermost composite has a single system among its sub-systems: nobody tells that one. -/
theorem C71_inner_removal {t c q y : Sys} {i j n : ℕ} (hs : Shape t) (ht : Positions t) (hc : sysAt t [i] = some c)
    (hq : sysAt c [j] = some q) (h2 : 2 ≤ q.dimension) (hy : sysAt t [n] = some y) (hn : n ≠ i) (hk : y.kind ≠ some true) :
    ∃ t' x, removeInner i j t = some (t', x) ∧ ¬ Positions t' := by
  have hw := (wf_iff t).2 ⟨hs, ht⟩
  have hcw := get_wf 1 1 [i] t c hw hc
  cases t with
  | node k d b a s =>
    cases hx : s[i]? with
    | none => simp [sysAt, hx] at hc
    | some c' =>
      obtain rfl : c' = c := by simpa [sysAt, hx] using hc
      cases hxn : s[n]? with
      | none => simp [sysAt, hxn] at hy
      | some y' =>
        obtain rfl : y' = y := by simpa [sysAt, hxn] using hy
        cases c' with
        | node kc dc bc ac sc =>
          cases hxj : sc[j]? with
          | none => simp [sysAt, hxj] at hq
          | some q' =>
            obtain rfl : q' = q := by simpa [sysAt, hxj] using hq
            have hkc : kc = some true := by
              have := get_shape [i] _ _ hs hc
              unfold Shape at this
              by_contra hkc
              rw [(this.2 hkc).1] at hxj
              simp at hxj
            subst hkc
            obtain ⟨l, r, rfl, rfl⟩ := split_at sc j q' hxj
            have hD : 0 < (leftOf (node k d b a s) [i]).prod ∧ 0 < (rightOf (node k d b a s) [i]).prod := by
              have := total_dimension hw hc
              have hpos := wf_pos hw
              rw [wf_before hcw, wf_after hcw] at this
              constructor
              · exact Nat.pos_of_ne_zero fun h => by rw [h] at this; simp at this; omega
              · exact Nat.pos_of_ne_zero fun h => by rw [h] at this; simp at this; omega
            obtain ⟨c'', x, h1, h3, h4, h5, -⟩ := removeTop_wf (by simpa using hD.1) (by simpa using hD.2) hcw
            have hi : i < s.length := (List.getElem?_eq_some_iff.1 hx).1
            refine ⟨_, x, by simp only [removeInner, hx, subs, hxj, h1]; rfl, ?_⟩
            intro hpos
            set u := (s.set i c'').mapIdx fun n y => if n = i then y else visit i q'.dimension n y with hu
            -- the single system is untouched
            have hun : u[n]? = some y' := by
              rw [hu, List.getElem?_mapIdx, List.getElem?_set_ne (Ne.symm hn), hxn]
              simp only [Option.map_some, hn, if_false]
              cases y' with
              | node ky dy b' a' sy => simp only [kind] at hk; simp [visit, hk]
            have hui : u[i]? = some c'' := by
              rw [hu, List.getElem?_mapIdx, List.getElem?_set_self hi]
              simp
            have hg1 : sysAt (node k d b a u) [n] = some y' := by simp [sysAt, hun]
            -- dimensions
            have hdu : dimProd u = dimProd (s.set i c'') := visitL_prod _ (fun n y => by
              by_cases h : n = i
              · simp [h]
              · simp [h, dimension_visit]) _
            have hk' : k = some true := by
              unfold Shape at hs
              by_contra hk'
              rw [(hs.2 hk').1] at hx
              simp at hx
            subst hk'
            have hset : dimProd (s.set i c'') * q'.dimension = dimProd s := by
              obtain ⟨l', r', rfl, rfl⟩ := split_at s i _ hx
              rw [set_append]
              simp only [dimProd_append, dimProd]
              rw [← h5]
              ring
            -- the product of the dimensions left of the single system, its own, and right of it is the whole, before and after
            have hb1 := ht [n] y' hy
            have hb2 := hpos [n] y' hg1
            have split_prod : ∀ (v : List Sys), v[n]? = some y' → (leftOf (node (some true) d b a v) [n]).prod * y'.dimension *
                (rightOf (node (some true) d b a v) [n]).prod = dimProd v := by
              intro v hv
              obtain ⟨l', r', rfl, rfl⟩ := split_at v n _ hv
              cases y'
              simp [leftOf, rightOf, dimsL_prod, dimProd_append, dimProd, mul_assoc]
            have e1 := split_prod s hxn
            have e2 := split_prod u hun
            rw [← hb1.1, ← hb1.2.1] at e1
            rw [← hb2.1, ← hb2.2.1] at e2
            have hsp : 0 < dimProd s := by
              have := wf_pos hw
              simpa [dimension] using this
            have : dimProd u = dimProd s := by rw [← e2, ← e1]
            rw [hdu] at this
            rw [this] at hset
            nlinarith

/-- The hypotheses are met by a qubit beside a composite of two qubits. -/
example : ∃ t' x, removeInner 1 0 (node (some true) 1 1 1
    [node (some false) 2 1 4 [], node (some true) 1 2 1 [node (some false) 2 2 2 [], node (some false) 2 4 1 []]]) = some (t', x) ∧
    ¬ Positions t' := by
  have hw : WF 1 1 (node (some true) 1 1 1
    [node (some false) 2 1 4 [], node (some true) 1 2 1 [node (some false) 2 2 2 [], node (some false) 2 4 1 []]]) := by
    simp [WF, WFL, dimension, dimProd]
  have h := (wf_iff _).1 hw
  exact C71_inner_removal (n := 0) h.1 h.2 rfl rfl (by decide) rfl (by decide) (by decide)

/-- **C71.** If all the other sub-systems of the outermost composite are composites (of single systems) the removal of a system from a
composite in an outermost composite leaves a consistent structure. -/
theorem C71_inner_removal_partial {t c q : Sys} {i j : ℕ} (hs : Shape t) (ht : Positions t) (hc : sysAt t [i] = some c)
    (hq : sysAt c [j] = some q) (hall : ∀ y ∈ t.subs, y.kind = some true) :
    ∃ t' x, removeInner i j t = some (t', x) ∧ Positions t' ∧ Shape t' ∧ dims t' = leftOf t [i, j] ++ rightOf t [i, j] ∧
      Positions x ∧ dims x = dims q := by
  have hw := (wf_iff t).2 ⟨hs, ht⟩
  have hcw := get_wf 1 1 [i] t c hw hc
  cases t with
  | node k d b a s =>
    cases hx : s[i]? with
    | none => simp [sysAt, hx] at hc
    | some c' =>
      obtain rfl : c' = c := by simpa [sysAt, hx] using hc
      have hk : k = some true := by
        unfold Shape at hs
        by_contra hk
        rw [(hs.2 hk).1] at hx
        simp at hx
      subst hk
      simp only [subs] at hall
      obtain ⟨u, v, rfl, rfl⟩ := split_at s i _ hx
      cases c' with
      | node kc dc bc ac sc =>
        have hkc : kc = some true := hall (node kc dc bc ac sc) (by simp)
        subst hkc
        cases hxj : sc[j]? with
        | none => simp [sysAt, hxj] at hq
        | some q' =>
          obtain rfl : q' = q := by simpa [sysAt, hxj] using hq
          obtain ⟨l, r, rfl, rfl⟩ := split_at sc j q' hxj
          unfold WF at hw
          obtain ⟨rfl, rfl, h1, -⟩ := hw
          have hsw := h1 rfl
          rw [wfL_append] at hsw
          simp only [WFL, dimProd, one_mul, mul_one] at hsw
          obtain ⟨hu, hcw', hv⟩ := hsw
          have hup := wfL_pos hu
          have hvp := wfL_pos hv
          obtain ⟨c'', x, g1, g2, g3, g4, g5, g6, g7, -⟩ := removeTop_wf hup hvp hcw'
          have hqp : 0 < q'.dimension := Nat.pos_of_ne_zero fun h => by
            rw [h] at g4
            have := wf_pos hcw'
            rw [← g4] at this
            simp at this
          have hc'' := wf_pos g2
          have e : ((u ++ node (some true) dc bc ac (l ++ q' :: r) :: v).set u.length c'').mapIdx
              (fun n y => if n = u.length then y else visit u.length q'.dimension n y) =
              (u.mapIdx fun n y => visit u.length q'.dimension (0 + n) y) ++ c'' ::
                (v.mapIdx fun n y => visit u.length q'.dimension (u.length + 1 + n) y) := by
            rw [set_append, List.mapIdx_append, List.mapIdx_cons]
            congr 1
            · apply List.mapIdx_eq_mapIdx_iff.2
              intro n hn
              rw [if_neg (by omega), zero_add]
            · congr 1
              · simp
              · apply List.mapIdx_eq_mapIdx_iff.2
                intro n hn
                rw [if_neg (by omega), show n + 1 + u.length = u.length + 1 + n by omega]
          have hwf : WF 1 1 (node (some true) d 1 1 ((u.mapIdx fun n y => visit u.length q'.dimension (0 + n) y) ++ c'' ::
                (v.mapIdx fun n y => visit u.length q'.dimension (u.length + 1 + n) y))) := by
            unfold WF
            refine ⟨rfl, rfl, fun _ => ?_, fun h => absurd rfl h⟩
            rw [wfL_append]
            simp only [WFL, dimProd, one_mul, mul_one]
            rw [visitL_prod _ (fun n y => dimension_visit _ _ _ _), visitL_prod _ (fun n y => dimension_visit _ _ _ _)]
            refine ⟨?_, g2, ?_⟩
            · apply wfL_visit_left _ _ hqp _ _ _ _ (Nat.mul_pos hc'' hvp) (by omega) (fun y hy => hall y (by simp [hy]))
              rw [mul_right_comm, g4]
              exact hu
            · apply wfL_visit_right _ _ hqp _ _ _ _ (Nat.mul_pos hup hc'') (by omega) (fun y hy => hall y (by simp [hy]))
              rw [mul_assoc, g4]
              exact hv
          have hfin := (wf_iff _).1 hwf
          refine ⟨_, x, by simp only [removeInner, hx, subs, hxj, g1]; rfl, ?_, ?_, ?_, ((wf_iff x).1 g6).2, g7⟩
          · rw [e]; exact hfin.2
          · rw [e]; exact hfin.1
          · rw [e]
            cases q'
            simp [dims, dimsL_append, dimsL, visitL_dims _ (fun n y => dims_visit _ _ _ _), leftOf, rightOf, g5]

/-! ### Histories -/

/-- What a user can do with the older classes, seen from the outermost systems (numbered in order of appearance). -/
inductive Op where
  /-- `qSystem` with this dimension -/
  | newSingle (d : ℕ)
  /-- `compQSystem()` -/
  | newComp
  /-- outermost composite `i`.addSubSys(outermost system `j`) -/
  | add (i j : ℕ)
  /-- set the dimension of the single system at this path of outermost system `i` -/
  | dim (i : ℕ) (p : List ℕ) (d : ℕ)
  /-- remove direct sub-system `j` of outermost composite `i`; it is then an outermost system itself -/
  | remove (i j : ℕ)
deriving Repr, DecidableEq

/-- One action on the list of outermost systems; `none` when the code raises or there are no such systems. -/
def step (w : List Sys) : Op → Option (List Sys)
  | .newSingle d => if d = 0 then none else some (w ++ [single d])
  | .newComp => some (w ++ [node (some true) 1 1 1 []])
  | .add i j =>
    if i = j then none else
    match w[i]?, w[j]? with
    | some p, some c => if p.kind = some true then (addSub p c).map fun p' => (w.set i p').eraseIdx j else none
    | _, _ => none
  | .dim i p d =>
    match w[i]? with
    | none => none
    | some t => if d = 0 ∨ (sysAt t p).map kind ≠ some (some false) then none else (setDimOld d p t).map fun r => w.set i r.1
  | .remove i j =>
    match w[i]? with
    | none => none
    | some t => (removeTop j t).map fun r => w.set i r.1 ++ [r.2]

/-- A history of actions. -/
def run : List Sys → List Op → Option (List Sys)
  | w, [] => some w
  | w, o :: r => match step w o with | none => none | some w' => run w' r

/-- The dimensions that are set are those of single systems below at most two composites. -/
def Op.Shallow : Op → Prop
  | .dim _ p _ => p.length ≤ 2
  | _ => True

theorem wf_step {w w' : List Sys} {o : Op} (hw : ∀ t ∈ w, WF 1 1 t) (ho : o.Shallow) (h : step w o = some w') :
    ∀ t ∈ w', WF 1 1 t := by
  intro t ht
  cases o with
  | newSingle d =>
    by_cases hd : d = 0
    · simp [step, hd] at h
    · simp only [step, hd, if_false, Option.some.injEq] at h
      subst h
      rcases List.mem_append.1 ht with h | h
      · exact hw t h
      · simp only [List.mem_singleton] at h; subst h; exact wf_single d (Nat.pos_of_ne_zero hd)
  | newComp =>
    simp only [step, Option.some.injEq] at h
    subst h
    rcases List.mem_append.1 ht with h | h
    · exact hw t h
    · simp only [List.mem_singleton] at h; subst h; simp [WF, WFL]
  | add i j =>
    by_cases hij : i = j
    · simp [step, hij] at h
    · cases hi : w[i]? with
      | none => simp [step, hij, hi] at h
      | some p =>
        cases hj : w[j]? with
        | none => simp [step, hij, hi, hj] at h
        | some c =>
          by_cases hk : p.kind = some true
          · cases ha : addSub p c with
            | none => simp [step, hij, hi, hj, ha] at h
            | some p' =>
              simp only [step, hij, if_false, hi, hj, hk, if_true, ha, Option.map_some, Option.some.injEq] at h
              subst h
              have hp' := wf_addSub (hw p (List.mem_of_getElem? hi)) (hw c (List.mem_of_getElem? hj)) ha
              rcases mem_set_of (List.mem_of_mem_eraseIdx ht) with h | rfl
              · exact hw t h
              · exact hp'
          · simp [step, hij, hi, hj, hk] at h
  | dim i p d =>
    cases hi : w[i]? with
    | none => simp [step, hi] at h
    | some r =>
      by_cases hc : d = 0 ∨ (sysAt r p).map kind ≠ some (some false)
      · simp only [step, hi, if_pos hc, reduceCtorEq] at h
      · have hc' := hc
        push Not at hc'
        obtain ⟨hd, hk⟩ := hc'
        cases hg : sysAt r p with
        | none => simp [hg] at hk
        | some q =>
          have hk' : q.kind = some false := by simpa [hg] using hk
          have hr := hw r (List.mem_of_getElem? hi)
          cases hs : setDimOld d p r with
          | none => simp [step, hi, hs] at h
          | some res =>
            simp only [step, hi, if_neg hc, hs, Option.map_some, Option.some.injEq] at h
            subst h
            rcases mem_set_of ht with h | rfl
            · exact hw t h
            · by_cases hp : p = []
              · subst hp
                cases r with
                | node k d₀ b a s =>
                  obtain rfl : node k d₀ b a s = q := by simpa [sysAt] using hg
                  simp only [kind] at hk'
                  subst hk'
                  simp only [setDimOld, Option.some.injEq, reduceCtorEq, if_false] at hs
                  subst hs
                  unfold WF at hr ⊢
                  obtain ⟨h1, h2, -, h4⟩ := hr
                  exact ⟨h1, h2, fun h => by simp at h, fun _ => ⟨(h4 (by simp)).1, Nat.pos_of_ne_zero hd⟩⟩
              · obtain ⟨t', h1, h2, h3, -⟩ := C71_dimension_partial ((wf_iff r).1 hr).1 ((wf_iff r).1 hr).2 hp ho hg hk' d hd
                obtain rfl := Option.some.inj (hs.symm.trans h1)
                exact (wf_iff _).2 ⟨h3, h2⟩
  | remove i j =>
    cases hi : w[i]? with
    | none => simp [step, hi] at h
    | some r =>
      have hr := (wf_iff r).1 (hw r (List.mem_of_getElem? hi))
      cases hs : removeTop j r with
      | none => simp [step, hi, hs] at h
      | some res =>
        simp only [step, hi, hs, Option.map_some, Option.some.injEq] at h
        subst h
        have hg : ∃ q, sysAt r [j] = some q := by
          cases r with
          | node k d b a s =>
            cases hx : s[j]? with
            | none => simp [removeTop, hx] at hs
            | some q => exact ⟨q, by cases q; simp [sysAt, hx]⟩
        obtain ⟨q, hg⟩ := hg
        obtain ⟨t', x, h1, h2, h3, -, h4, h5, -⟩ := C71_removal hr.1 hr.2 hg
        obtain rfl := Option.some.inj (hs.symm.trans h1)
        rcases List.mem_append.1 ht with h | h
        · rcases mem_set_of h with h | rfl
          · exact hw t h
          · exact (wf_iff _).2 ⟨h3, h2⟩
        · simp only [List.mem_singleton] at h
          subst h
          exact (wf_iff _).2 ⟨h5, h4⟩

theorem wf_run : ∀ (ops : List Op) (w w' : List Sys), (∀ t ∈ w, WF 1 1 t) → (∀ o ∈ ops, o.Shallow) → run w ops = some w' →
    ∀ t ∈ w', WF 1 1 t
  | [], w, w', hw, _, h => by
    simp only [run, Option.some.injEq] at h
    subst h; exact hw
  | o :: r, w, w', hw, ho, h => by
    simp only [run] at h
    cases hs : step w o with
    | none => simp [hs] at h
    | some w₁ =>
      simp only [hs] at h
      exact wf_run r w₁ w' (wf_step hw (ho o (by simp)) hs) (fun x hx => ho x (by simp [hx])) h

/-- **C71.** Whatever is built with the older classes by adding systems to outermost composites, removing direct sub-systems from outermost
composites (using them again, also composites), and setting the dimension of single systems below at most two composites: every system
knows the product of the dimensions of all single systems before and after it.

Partial: `C71_nested_growth`, `C71_inner_removal` and `C71_three_levels` say that it is false without these restrictions. -/
theorem C71_positions_partial (ops : List Op) (w : List Sys) (ho : ∀ o ∈ ops, o.Shallow) (h : run [] ops = some w) :
    ∀ t ∈ w, Positions t ∧ Shape t :=
  fun t ht => have := (wf_iff t).1 (wf_run ops [] w (by simp) ho h t ht); ⟨this.2, this.1⟩

/-- A qubit and a composite of a three-level system and a qubit; the three-level system gets five levels, the inner composite is taken
out and put into another composite. -/
example : (run [] [.newComp, .newSingle 2, .add 0 1, .newComp, .newSingle 3, .add 1 2, .newSingle 2, .add 1 2, .add 0 1,
    .dim 0 [1, 0] 5, .remove 0 1, .newComp, .newSingle 7, .add 2 3, .add 2 1]).map (·.map fun t => (dims t, (sysAt t [1, 0]).map fun q => (q.before, q.after))) =
    some [([2], none), ([7, 5, 2], some (7, 2))] := by decide +kernel

end Verif.Old
