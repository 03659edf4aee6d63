import Verif.Old.Dims

/-!
# C71: dimensions of systems three composites deep in the older classes
-/
namespace Verif.Old
open Verif.Tree Verif.Tree.Sys

/-- Two consistent structures that differ at most in what they know about positions do not differ. -/
theorem same_positions {t t' x x' : Sys} (h : skel t = skel t') (ht : Positions t) (ht' : Positions t') (p : List ℕ)
    (hx : sysAt t p = some x) (hx' : sysAt t' p = some x') : x.before = x'.before ∧ x.after = x'.after := by
  have h1 := ht p x hx
  have h2 := ht' p x' hx'
  rw [h1.1, h1.2.1, h2.1, h2.2.1, ← (sides_skel p t).1, ← (sides_skel p t).2, h, (sides_skel p t').1, (sides_skel p t').2]
  exact ⟨rfl, rfl⟩

theorem mem_dimsL {x : Sys} {v : ℕ} (hv : v ∈ dims x) : ∀ (s : List Sys), x ∈ s → v ∈ dimsL s
  | [], h => by simp at h
  | y :: s, h => by
    rw [dimsL, List.mem_append]
    rcases List.mem_cons.1 h with rfl | h
    · exact .inl hv
    · exact .inr (mem_dimsL hv s h)

theorem mem_dims : ∀ (p : List ℕ) (t q : Sys), Shape t → sysAt t p = some q → q.kind ≠ some true → q.dimension ∈ dims t
  | [], t, q, _, hg, hk => by
    cases t
    simp only [sysAt, Option.some.injEq] at hg
    subst hg
    simp only [kind] at hk
    simp [dims, dimension, hk]
  | i :: p, node k d b a s, q, hs, hg, hk => by
    cases hx : s[i]? with
    | none => simp [sysAt, hx] at hg
    | some x =>
      have hsx := get_shape [i] _ x hs (by simp [sysAt, hx])
      simp only [sysAt, hx] at hg
      have hm := mem_dims p x q hsx hg hk
      have hk' : k = some true := by
        by_contra hk'
        unfold Shape at hs
        rw [(hs.2 hk').1] at hx
        simp at hx
      rw [dims, if_pos hk']
      exact mem_dimsL hm s (List.mem_of_getElem? hx)

theorem scaled_ne {x d o : ℕ} (hx : 0 < x) (ho : o ∣ x) (hd : d ≠ o) : x * d / o ≠ x := by
  obtain ⟨c, rfl⟩ := ho
  have ho : 0 < o := Nat.pos_of_mul_pos_right hx
  have hc : 0 < c := Nat.pos_of_mul_pos_left hx
  rw [mul_assoc, Nat.mul_div_cancel_left _ ho]
  intro h
  apply hd
  have : c * d = c * o := by rw [h, mul_comm]
  exact Nat.eq_of_mul_eq_mul_left hc this

theorem after_setAfter (v : ℕ) (s : Sys) : (setAfter v s).after = v := by cases s; simp [setAfter, after]
theorem before_setBefore (v : ℕ) (s : Sys) : (setBefore v s).before = v := by cases s; simp [setBefore, before]

theorem scaleAfter_get (v o : ℕ) : ∀ (s : List Sys) (n : ℕ) (x : Sys), s[n]? = some x →
    (scaleAfter v o s)[n]? = some (setAfter (x.after * v / o) x)
  | [], n, x, h => by simp at h
  | y :: s, 0, x, h => by
    simp only [List.getElem?_cons_zero, Option.some.injEq] at h
    subst h
    simp [scaleAfter]
  | y :: s, n + 1, x, h => by
    simp only [List.getElem?_cons_succ] at h
    simp only [scaleAfter, List.getElem?_cons_succ]
    exact scaleAfter_get v o s n x h

/-- What is written to the other sub-systems of the outermost composite. -/
theorem root_eq (i j d o : ℕ) (k : Option Bool) (d₀ : ℕ) (s : List Sys) :
    updateAbove i (i + j) d o (node k d₀ 1 1 s) = node k d₀ 1 1 (s.mapIdx fun n q =>
      if n = i then q else if n < i + j then setAfter (q.after * d / o) q
      else if i + j < n then setBefore (q.before * d / o) q else q) := by
  simp [updateAbove]

theorem map_skel_root (i j d o : ℕ) (s : List Sys) : (s.mapIdx fun n q =>
      if n = i then q else if n < i + j then setAfter (q.after * d / o) q
      else if i + j < n then setBefore (q.before * d / o) q else q).map skel = s.map skel := by
  apply List.ext_getElem
  · simp
  · intro n h1 h2
    simp only [List.getElem_map, List.getElem_mapIdx]
    split
    · rfl
    · split
      · rw [skel_setAfter]
      · split
        · rw [skel_setBefore]
        · rfl

theorem skel_updateAbove (i m d o : ℕ) (y : Sys) : skel (updateAbove i m d o y) = skel y := by
  cases y with
  | node k d₀ b a s =>
    rw [updateAbove]
    split
    · split
      · rw [skel_setAfter]
      · rfl
    · simp only [skel, skelL_eq]
      congr 1
      apply List.ext_getElem
      · simp
      · intro n h1 h2
        simp only [List.getElem_map, List.getElem_mapIdx]
        split
        · rfl
        · split
          · rw [skel_setAfter]
          · split
            · rw [skel_setBefore]
            · rfl

theorem dims_pos {t : Sys} (hs : Shape t) : ∀ v ∈ dims t, v ≠ 0 := by
  intro v hv h0
  have := shape_dimension_pos t hs
  rw [dimension_eq] at this
  subst h0
  rw [List.prod_eq_zero hv] at this
  exact absurd this (lt_irrefl 0)

theorem dimsL_pos {s : List Sys} (hs : ∀ x ∈ s, Shape x) : (dimsL s).prod ≠ 0 := by
  induction s with
  | nil => simp [dimsL]
  | cons x s ih =>
    rw [dimsL, List.prod_append, ← dimension_eq]
    have := shape_dimension_pos x (hs x (by simp))
    exact mul_ne_zero (by omega) (ih fun y hy => hs y (by simp [hy]))

theorem shape_subs {k : Option Bool} {d b a : ℕ} {s : List Sys} (hs : Shape (node k d b a s)) : ∀ x ∈ s, Shape x := by
  intro x hx
  unfold Shape at hs
  by_cases hk : k = some true
  · exact shapeL_mem s (hs.1 hk) x hx
  · rw [(hs.2 hk).1] at hx
    simp at hx

theorem left_ne_zero : ∀ {t : Sys}, Shape t → ∀ p, (leftOf t p).prod ≠ 0
  | t, _, [] => by cases t; simp [leftOf]
  | node k d b a s, hs, i :: p => by
    simp only [leftOf, List.prod_append]
    refine mul_ne_zero (dimsL_pos fun x hx => shape_subs hs x (List.mem_of_mem_take hx)) ?_
    cases hx : s[i]? with
    | none => simp
    | some x => exact left_ne_zero (shape_subs hs x (List.mem_of_getElem? hx)) p

theorem right_ne_zero : ∀ {t : Sys}, Shape t → ∀ p, (rightOf t p).prod ≠ 0
  | t, _, [] => by cases t; simp [rightOf]
  | node k d b a s, hs, i :: p => by
    simp only [rightOf, List.prod_append]
    refine mul_ne_zero ?_ (dimsL_pos fun x hx => shape_subs hs x (List.mem_of_mem_drop hx))
    cases hx : s[i]? with
    | none => simp
    | some x => exact right_ne_zero (shape_subs hs x (List.mem_of_getElem? hx)) p

/-- **C71 (three levels, exactly).** Setting the dimension of a single system in a composite `c` (position `j`) in a composite `y`
(position `i`) in an outermost composite never raises anything.  The structure is consistent afterwards exactly when there is nothing of
dimension two or more beside `y` and moreover `c` is the first in `y` or nothing comes after `y`, or when there is something beside `y`
and `c` is the only sub-system of `y`. -/
theorem C71_three_levels_iff {t y q : Sys} {i j l : ℕ} (hs : Shape t) (ht : Positions t) (hy : sysAt t [i] = some y)
    (hg : sysAt t [i, j, l] = some q) (hk : q.kind = some false) (d : ℕ) (hd : d ≠ 0) (hdq : d ≠ q.dimension) :
    ∃ t', setDimOld d [i, j, l] t = some (t', q.dimension) ∧
      (Positions t' ↔ if y.before = 1 ∧ y.after = 1 then j = 0 ∨ t.subs.length = i + 1 else y.subs.length = 1) := by
  have ht0 := ht [] t (by cases t; rfl)
  have e1 : leftOf t [] = [] := by cases t; rfl
  have e2 : rightOf t [] = [] := by cases t; rfl
  rw [e1, e2] at ht0
  obtain ⟨t'', o, hS, hP'', -, -, -, -⟩ := C26_dimension hs ht hg (by rw [hk]; simp) d hd
  have hq0 : 0 < q.dimension := shape_dimension_pos q (get_shape _ _ _ hs hg)
  cases t with
  | node k d₀ b₀ a₀ s =>
    obtain ⟨hb0, ha0, -⟩ := ht0
    simp only [before, after, List.prod_nil] at hb0 ha0
    subst hb0 ha0
    have hyi : s[i]? = some y := by
      cases hx : s[i]? with
      | none => simp [sysAt, hx] at hy
      | some x =>
        simp only [sysAt, hx] at hy
        exact hy
    have hsy : Shape y := get_shape [i] _ _ hs hy
    have hgy : sysAt y [j, l] = some q := by
      simp only [sysAt, hyi] at hg
      exact hg
    cases y with
    | node ky dy b a sy =>
      cases hc : sy[j]? with
      | none => simp [sysAt, hc] at hgy
      | some c =>
        have hgc : sysAt c [l] = some q := by
          simp only [sysAt, hc] at hgy
          exact hgy
        have hsc : Shape c := get_shape [j] _ _ hsy (by simp [sysAt, hc])
        obtain ⟨c', h1, h2⟩ := setDimOld_one d l c q hsc hgc hk hd
        have hqn : q.dimension ≠ 0 := by omega
        have hjl : j < sy.length := (List.getElem?_eq_some_iff.1 hc).1
        have hil : i < s.length := (List.getElem?_eq_some_iff.1 hyi).1
        -- the result of the newer class
        set y'' := node ky dy b a (updateDim j d q.dimension (sy.set j c')) with hy''
        have hT : t'' = node k d₀ 1 1 (updateDim i d q.dimension (s.set i y'')) := by
          rw [setDim] at hS
          simp only [hyi] at hS
          rw [setDim] at hS
          simp only [hc, h2, Option.some.injEq, Prod.mk.injEq] at hS
          rw [← hS.1]
        subst hT
        -- the result of the older class
        set y' := updateAbove j j d q.dimension (node ky dy b a (sy.set j c')) with hy'
        have hO : setDimOld d [i, j, l] (node k d₀ 1 1 s) =
            some (updateAbove i (i + j) d q.dimension (node k d₀ 1 1 (s.set i y')), q.dimension) := by
          rw [setDimOld]
          simp only [hyi]
          rw [setDimOld]
          simp only [hc, h1, hqn, if_false, reduceCtorEq, ind, List.dropLast_cons_cons, List.dropLast_singleton, List.sum_cons,
            List.sum_nil, add_zero]
          rw [← hy']
        refine ⟨_, hO, ?_⟩
        rw [root_eq]
        show Positions _ ↔ if b = 1 ∧ a = 1 then j = 0 ∨ s.length = i + 1 else sy.length = 1
        -- positions apart the two results agree
        have hsy' : skel y' = skel y'' := by
          rw [hy', hy'', skel_updateAbove]
          simp only [skel, skelL_eq, map_skel_updateDim]
        have hsk : skel (node k d₀ 1 1 ((s.set i y').mapIdx fun n q₁ =>
            if n = i then q₁ else if n < i + j then setAfter (q₁.after * d / q.dimension) q₁
            else if i + j < n then setBefore (q₁.before * d / q.dimension) q₁ else q₁)) =
            skel (node k d₀ 1 1 (updateDim i d q.dimension (s.set i y''))) := by
          simp only [skel, skelL_eq, map_skel_updateDim, map_skel_root, List.map_set, hsy']
        have hyt : sysAt (node k d₀ 1 1 (updateDim i d q.dimension (s.set i y''))) [i] = some y'' := by
          simp [sysAt, updateDim, List.getElem?_mapIdx, hil]
        have hyo : sysAt (node k d₀ 1 1 ((s.set i y').mapIdx fun n q₁ =>
            if n = i then q₁ else if n < i + j then setAfter (q₁.after * d / q.dimension) q₁
            else if i + j < n then setBefore (q₁.before * d / q.dimension) q₁ else q₁)) [i] = some y' := by
          simp [sysAt, List.getElem?_mapIdx, hil]
        have hqd : q.dimension ∈ dims c := mem_dims [l] c q hsc hgc (by rw [hk]; simp)
        by_cases hab : b = 1 ∧ a = 1
        · rw [if_pos hab]
          obtain ⟨rfl, rfl⟩ := hab
          have hyy : y' = y'' := by
            rw [hy', hy'']
            simp only [updateAbove, ne_eq, not_true_eq_false, or_self, if_false, updateDim]
            congr 1
            apply List.mapIdx_eq_mapIdx_iff.2
            intro n hn
            by_cases hnj : n = j
            · subst hnj; simp
            · simp [hnj]
          constructor
          · intro hP
            by_contra hcon
            push Not at hcon
            have hlt : i + 1 < s.length := by omega
            obtain ⟨z, hz⟩ : ∃ z, s[i + 1]? = some z := ⟨_, List.getElem?_eq_getElem hlt⟩
            have hj := hcon.1
            obtain ⟨x', hx', hb'⟩ : ∃ x', sysAt (node k d₀ 1 1 ((s.set i y').mapIdx fun n q₁ =>
                if n = i then q₁ else if n < i + j then setAfter (q₁.after * d / q.dimension) q₁
                else if i + j < n then setBefore (q₁.before * d / q.dimension) q₁ else q₁)) [i + 1] = some x' ∧ x'.before = z.before := by
              by_cases h1j : i + 1 < i + j
              · refine ⟨setAfter (z.after * d / q.dimension) z, ?_, ?_⟩
                · simp [sysAt, List.getElem?_mapIdx, List.getElem?_set, hz, show 1 < j by omega]
                · cases z; simp [setAfter, before]
              · refine ⟨z, ?_, rfl⟩
                have : j = 1 := by omega
                subst this
                simp [sysAt, List.getElem?_mapIdx, List.getElem?_set, hz]
            have hx'' : sysAt (node k d₀ 1 1 (updateDim i d q.dimension (s.set i y''))) [i + 1] =
                some (setBefore (z.before * d / q.dimension) z) := by
              simp [sysAt, updateDim, List.getElem?_mapIdx, List.getElem?_set, hz]
            have := (same_positions hsk hP hP'' [i + 1] hx' hx'').1
            rw [hb', before_setBefore] at this
            have hzt := (ht [i + 1] z (by simp [sysAt, hz])).1
            refine scaled_ne ?_ ?_ hdq this.symm
            · rw [hzt]
              exact Nat.pos_of_ne_zero (left_ne_zero hs _)
            · rw [hzt]
              apply List.dvd_prod
              simp only [leftOf, List.mem_append]
              left
              refine mem_dimsL (x := node ky dy 1 1 sy) ?_ _ (List.mem_of_getElem? (i := i) (by simp [hyi]))
              exact mem_dims [j, l] _ q hsy hgy (by rw [hk]; simp)
          · intro hcase
            have : ((s.set i y').mapIdx fun n q₁ =>
                if n = i then q₁ else if n < i + j then setAfter (q₁.after * d / q.dimension) q₁
                else if i + j < n then setBefore (q₁.before * d / q.dimension) q₁ else q₁) =
                updateDim i d q.dimension (s.set i y'') := by
              rw [hyy]
              unfold updateDim
              apply List.mapIdx_eq_mapIdx_iff.2
              intro n hn
              rw [List.length_set] at hn
              by_cases hni : n = i
              · subst hni; simp
              · by_cases hlt : n < i
                · simp [hni, hlt, show n < i + j by omega]
                · rcases hcase with rfl | hcase
                  · simp [hni]
                  · omega
            rw [this]
            exact hP''
        · rw [if_neg hab]
          have hab' : a ≠ 1 ∨ b ≠ 1 := by tauto
          constructor
          · intro hP
            by_contra hcon
            by_cases hj : j = 0
            · subst hj
              have hlt : 1 < sy.length := by omega
              obtain ⟨z, hz⟩ : ∃ z, sy[1]? = some z := ⟨_, List.getElem?_eq_getElem hlt⟩
              have hx' : sysAt (node k d₀ 1 1 ((s.set i y').mapIdx fun n q₁ =>
                if n = i then q₁ else if n < i + 0 then setAfter (q₁.after * d / q.dimension) q₁
                else if i + 0 < n then setBefore (q₁.before * d / q.dimension) q₁ else q₁)) [i, 1] = some z := by
                simp [sysAt, List.getElem?_mapIdx, hil, hy', updateAbove, hab', hz, List.getElem?_set]
              have hx'' : sysAt (node k d₀ 1 1 (updateDim i d q.dimension (s.set i y''))) [i, 1] =
                  some (setBefore (z.before * d / q.dimension) z) := by
                simp [sysAt, updateDim, List.getElem?_mapIdx, hil, hy'', hz, List.getElem?_set]
              have := (same_positions hsk hP hP'' [i, 1] hx' hx'').1
              rw [before_setBefore] at this
              have hzt := (ht [i, 1] z (by simp [sysAt, hyi, hz])).1
              refine scaled_ne ?_ ?_ hdq this.symm
              · rw [hzt]
                exact Nat.pos_of_ne_zero (left_ne_zero hs _)
              · rw [hzt]
                apply List.dvd_prod
                simp only [leftOf, hyi, List.mem_append]
                right; left
                exact mem_dimsL hqd _ (List.mem_of_getElem? (i := 0) (by simp [hc]))
            · have hj0 : 0 < j := by omega
              have ha : a * d / q.dimension = a := by
                have h3 := (same_positions hsk hP hP'' [i] hyo hyt).2
                rw [hy', hy''] at h3
                simp only [updateAbove, hab', if_true, hj0, after_setAfter, after] at h3
                exact h3
              have ha0 : 0 < a := by
                have := (ht [i] _ hy).2.1
                simp only [after] at this
                rw [this]
                exact Nat.pos_of_ne_zero (right_ne_zero hs _)
              obtain ⟨z, hz⟩ : ∃ z, sy[0]? = some z := ⟨_, List.getElem?_eq_getElem (by omega)⟩
              have hz' : (sy.set j c')[0]? = some z := by
                rw [List.getElem?_set_ne (by omega), hz]
              obtain ⟨x', hx', hb'⟩ : ∃ x', sysAt (node k d₀ 1 1 ((s.set i y').mapIdx fun n q₁ =>
                if n = i then q₁ else if n < i + j then setAfter (q₁.after * d / q.dimension) q₁
                else if i + j < n then setBefore (q₁.before * d / q.dimension) q₁ else q₁)) [i, 0] = some x' ∧ x'.after = z.after := by
                refine ⟨setAfter (z.after * a / a) z, ?_, ?_⟩
                · have := scaleAfter_get a a (sy.set j c') 0 z hz'
                  simp [sysAt, List.getElem?_mapIdx, hil, hy', updateAbove, hab', hj0, ha, setAfter, this]
                · rw [after_setAfter, Nat.mul_div_cancel _ ha0]
              have hx'' : sysAt (node k d₀ 1 1 (updateDim i d q.dimension (s.set i y''))) [i, 0] =
                  some (setAfter (z.after * d / q.dimension) z) := by
                simp only [sysAt, updateDim, List.getElem?_mapIdx, List.getElem?_set_self hil, hy'', hz', hj0, Option.map_some, lt_irrefl,
                  if_false, if_true]
              have := (same_positions hsk hP hP'' [i, 0] hx' hx'').2
              rw [hb', after_setAfter] at this
              have hzt := (ht [i, 0] z (by simp [sysAt, hyi, hz])).2.1
              refine scaled_ne ?_ ?_ hdq this.symm
              · rw [hzt]
                exact Nat.pos_of_ne_zero (right_ne_zero hs _)
              · rw [hzt]
                apply List.dvd_prod
                simp only [rightOf, hyi, hz, List.mem_append]
                left; right
                refine mem_dimsL hqd _ (List.mem_of_getElem? (i := j - 1) ?_)
                rw [List.getElem?_drop, show 0 + 1 + (j - 1) = j by omega, hc]
          · intro hlen
            have hj : j = 0 := by omega
            subst hj
            have hyy : y' = y'' := by
              rw [hy', hy'']
              simp only [updateAbove, hab', if_true, lt_irrefl, if_false, updateDim]
              congr 1
              obtain ⟨x, rfl⟩ := List.length_eq_one_iff.1 hlen
              simp
            have : ((s.set i y').mapIdx fun n q₁ =>
                if n = i then q₁ else if n < i + 0 then setAfter (q₁.after * d / q.dimension) q₁
                else if i + 0 < n then setBefore (q₁.before * d / q.dimension) q₁ else q₁) =
                updateDim i d q.dimension (s.set i y'') := by
              rw [hyy]
              unfold updateDim
              apply List.mapIdx_eq_mapIdx_iff.2
              intro n hn
              by_cases hni : n = i
              · subst hni; simp
              · simp [hni]
            rw [this]
            exact hP''

/-- Both sides are reachable: alone in its composite the change is consistent, behind another one it is not. -/
example : (∃ t', setDimOld 3 [0, 0, 0] (node (some true) 1 1 1
      [node (some true) 1 1 2 [node (some true) 1 1 2 [node (some false) 2 1 2 []]], node (some false) 2 2 1 []]) = some (t', 2) ∧
      Positions t') ∧ ∃ t', setDimOld 3 [0, 1, 0] deep = some (t', 2) ∧ ¬ Positions t' := by
  constructor
  · have hw : WF 1 1 (node (some true) 1 1 1
      [node (some true) 1 1 2 [node (some true) 1 1 2 [node (some false) 2 1 2 []]], node (some false) 2 2 1 []]) := by
      simp [WF, WFL, dimension, dimProd]
    obtain ⟨t', h1, h2⟩ := C71_three_levels_iff (i := 0) (j := 0) (l := 0) ((wf_iff _).1 hw).1 ((wf_iff _).1 hw).2 rfl rfl rfl 3
      (by omega) (by simp [dimension])
    exact ⟨t', h1, h2.2 (by simp [before, after, subs])⟩
  · obtain ⟨t', h1, h2⟩ := C71_three_levels_iff (i := 0) (j := 1) (l := 0) C71_three_levels.1 C71_three_levels.2.1 rfl rfl rfl 3
      (by omega) (by simp [dimension])
    exact ⟨t', h1, fun h => by simpa [before, after, subs] using h2.1 h⟩

end Verif.Old
