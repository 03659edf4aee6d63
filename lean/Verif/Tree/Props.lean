import Verif.Tree.Remove

/-!
# C26, C27, C28: positions in composite systems

`Positions` (in `Spec`) is the property; the theorems say which histories keep it, and which do not.
-/
namespace Verif.Tree
open Sys

/-! ### Which single systems are there after a change -/

mutual
theorem dims_skel : ∀ s : Sys, dims (skel s) = dims s
  | node k d b a s => by
    by_cases hk : k = some true
    · simp [skel, dims, hk, dimsL_skelL s]
    · simp [skel, dims, hk]
theorem dimsL_skelL : ∀ s : List Sys, dimsL (skelL s) = dimsL s
  | [] => rfl
  | s :: r => by simp [skelL, dimsL, dims_skel s, dimsL_skelL r]
end

mutual
theorem shape_skel : ∀ s : Sys, Shape s → Shape (skel s)
  | node k d b a s, h => by
    unfold Shape at h
    unfold skel Shape
    refine ⟨fun hk => shapeL_skelL s (h.1 hk), fun hk => ?_⟩
    obtain ⟨rfl, hd⟩ := h.2 hk
    exact ⟨rfl, by simpa [hk] using hd⟩
theorem shapeL_skelL : ∀ s : List Sys, ShapeL s → ShapeL (skelL s)
  | [], _ => by simp [skelL, ShapeL]
  | s :: r, h => by
    simp only [ShapeL] at h
    simp only [skelL, ShapeL]
    exact ⟨shape_skel s h.1, shapeL_skelL r h.2⟩
end

theorem shapeL_mem : ∀ (s : List Sys), ShapeL s → ∀ x ∈ s, Shape x
  | [], _, _, h => by simp at h
  | y :: r, hs, x, h => by
    simp only [ShapeL] at hs
    rcases List.mem_cons.1 h with rfl | h
    · exact hs.1
    · exact shapeL_mem r hs.2 x h

theorem shapeL_of_mem : ∀ (s : List Sys), (∀ x ∈ s, Shape x) → ShapeL s
  | [], _ => by simp [ShapeL]
  | y :: r, h => by
    simp only [ShapeL]
    exact ⟨h y (by simp), shapeL_of_mem r fun x hx => h x (by simp [hx])⟩

mutual
theorem shape_of_skel : ∀ s : Sys, Shape (skel s) → Shape s
  | node k d b a s, h => by
    unfold skel Shape at h
    unfold Shape
    refine ⟨fun hk => shapeL_of_skelL s (h.1 hk), fun hk => ?_⟩
    obtain ⟨hs, hd⟩ := h.2 hk
    simp only [hk, if_false] at hd
    refine ⟨?_, hd⟩
    rw [skelL_eq] at hs
    simpa using hs
theorem shapeL_of_skelL : ∀ s : List Sys, ShapeL (skelL s) → ShapeL s
  | [], _ => by simp [ShapeL]
  | s :: r, h => by
    simp only [skelL, ShapeL] at h
    simp only [ShapeL]
    exact ⟨shape_of_skel s h.1, shapeL_of_skelL r h.2⟩
end

theorem shape_addLoop (s : List Sys) (c : Sys) (hs : ShapeL s) (hc : Shape c) :
    ShapeL (addLoop s c).1 ∧ Shape (addLoop s c).2 := by
  induction s generalizing c with
  | nil => exact ⟨by simp [addLoop, ShapeL], hc⟩
  | cons q r ih =>
    simp only [ShapeL] at hs
    have hc' : Shape (setBefore (c.before * q.dimension) c) :=
      shape_of_skel _ (by rw [skel_setBefore]; exact shape_skel c hc)
    have hq' : Shape (setAfter (q.after * c.dimension) q) :=
      shape_of_skel _ (by rw [skel_setAfter]; exact shape_skel q hs.1)
    simp only [addLoop, ShapeL]
    exact ⟨⟨hq', (ih _ hs.2 hc').1⟩, (ih _ hs.2 hc').2⟩

theorem shape_addSub (p c p' : Sys) (hp : Shape p) (hc : Shape c) (h : addSub p c = some p') : Shape p' := by
  cases p with
  | node k d b a s =>
    unfold Shape at hp
    have hs : ShapeL s := by
      by_cases hk : k = some true
      · exact hp.1 hk
      · rw [(hp.2 hk).1]; simp [ShapeL]
    have hp' : p' = node (some true) d b a ((addLoop s c).1 ++ [(addLoop s c).2]) := by
      unfold addSub at h
      split at h
      · cases h
      · rename_i e
        injection e with e1 e2 e3 e4 e5
        subst e1 e2 e3 e4 e5
        exact (Option.some.inj h).symm
    subst hp'
    unfold Shape
    refine ⟨fun _ => shapeL_of_mem _ fun x hx => ?_, fun hk => absurd rfl hk⟩
    have hl := shape_addLoop s c hs hc
    rcases List.mem_append.1 hx with hx | hx
    · exact shapeL_mem _ hl.1 x hx
    · rw [List.mem_singleton.1 hx]; exact hl.2

theorem shape_modifyAt (f : Sys → Option Sys) : ∀ (p : List Nat) (t t' : Sys), Shape t →
    (∀ q q', Shape q → f q = some q' → Shape q') → modifyAt f p t = some t' → Shape t'
  | [], t, t', hs, hf, h => hf t t' hs h
  | i :: p, node k d b a s, t', hs, hf, h => by
    cases hq : s[i]? with
    | none => simp [modifyAt, hq] at h
    | some x =>
      cases hx : modifyAt f p x with
      | none => simp [modifyAt, hq, hx] at h
      | some x' =>
        simp only [modifyAt, hq, hx, Option.some.injEq] at h
        subst h
        unfold Shape at hs ⊢
        have hk : k = some true := by
          by_contra hk
          rw [(hs.2 hk).1] at hq
          simp at hq
        refine ⟨fun _ => shapeL_of_mem _ fun y hy => ?_, fun h => absurd hk h⟩
        rcases List.mem_or_eq_of_mem_set hy with hy | rfl
        · exact shapeL_mem s (hs.1 hk) y hy
        · exact shape_modifyAt f p x _ (shapeL_mem s (hs.1 hk) x (List.mem_of_getElem? hq)) hf hx

theorem sides_skel : ∀ (p : List Nat) (t : Sys), leftOf (skel t) p = leftOf t p ∧ rightOf (skel t) p = rightOf t p
  | [], t => by cases t; simp [skel, leftOf, rightOf]
  | i :: p, node k d b a s => by
    have e1 : dimsL (List.take i (List.map skel s)) = dimsL (s.take i) := by
      rw [← List.map_take, ← skelL_eq, dimsL_skelL]
    have e2 : dimsL (List.drop (i + 1) (List.map skel s)) = dimsL (s.drop (i + 1)) := by
      rw [← List.map_drop, ← skelL_eq, dimsL_skelL]
    cases hq : s[i]? with
    | none => simp [skel, skelL_eq, leftOf, rightOf, hq, e1, e2]
    | some x => simp [skel, skelL_eq, leftOf, rightOf, hq, e1, e2, sides_skel p x]

theorem dims_modifyAt (f : Sys → Option Sys) : ∀ (p : List Nat) (t t' q' : Sys), Shape t → modifyAt f p t = some t' →
    sysAt t' p = some q' → dims t' = leftOf t p ++ dims q' ++ rightOf t p
  | [], t, t', q', _, _, hg => by
    cases t'
    simp only [sysAt, Option.some.injEq] at hg
    subst hg
    simp [leftOf, rightOf]
  | i :: p, node k d b a s, t', q', hs, h, hg => by
    cases hq : s[i]? with
    | none => simp [modifyAt, hq] at h
    | some x =>
      cases hx : modifyAt f p x with
      | none => simp [modifyAt, hq, hx] at h
      | some x' =>
        simp only [modifyAt, hq, hx, Option.some.injEq] at h
        subst h
        unfold Shape at hs
        have hk : k = some true := by
          by_contra hk
          rw [(hs.2 hk).1] at hq
          simp at hq
        subst hk
        obtain ⟨l, r, rfl, rfl⟩ := split_at s i x hq
        have hsx : Shape x := shapeL_mem _ (hs.1 rfl) x (by simp)
        simp only [sysAt, set_append] at hg
        simp at hg
        have ih := dims_modifyAt f p x x' q' hsx hx hg
        simp [dims, leftOf, rightOf, dimsL_append, dimsL, ih]

theorem dims_pop : ∀ (p : List Nat) (t t' : Sys), Shape t → pop p t = some t' → dims t' = leftOf t p ++ rightOf t p
  | [], t, t', _, h => by cases t; simp [pop] at h
  | [i], node k d b a s, t', hs, h => by
    by_cases hi : i < s.length
    · obtain ⟨l, r, hlr, rfl⟩ := split_at s i s[i] (List.getElem?_eq_getElem hi)
      unfold Shape at hs
      have hk : k = some true := by
        by_contra hk
        rw [(hs.2 hk).1] at hi
        simp at hi
      subst hk
      simp only [pop, hi, if_true, Option.some.injEq] at h
      subst h
      rw [hlr]
      simp [dims, leftOf, rightOf, dimsL_append, List.eraseIdx_append]
    · simp [pop, hi] at h
  | i :: j :: p, node k d b a s, t', hs, h => by
    cases hq : s[i]? with
    | none => simp [pop, hq] at h
    | some x =>
      cases hx : pop (j :: p) x with
      | none => simp [pop, hq, hx] at h
      | some x' =>
        simp only [pop, hq, hx, Option.some.injEq] at h
        subst h
        unfold Shape at hs
        have hk : k = some true := by
          by_contra hk
          rw [(hs.2 hk).1] at hq
          simp at hq
        subst hk
        obtain ⟨l, r, rfl, rfl⟩ := split_at s i x hq
        have hsx : Shape x := shapeL_mem _ (hs.1 rfl) x (by simp)
        have ih := dims_pop (j :: p) x x' hsx hx
        simp only [leftOf, rightOf, dims, if_true, set_append, hq]
        rw [dimsL_append, dimsL, ih]
        simp

/-! ### C26 -/

theorem wf_blank : WF 1 1 blank := by simp [blank, WF]
theorem wf_single (d : Nat) (h : 0 < d) : WF 1 1 (single d) := by simp [single, WF, h]

theorem removeAt_spec {t q : Sys} {p : List Nat} (hw : WF 1 1 t) (hp : p ≠ []) (hg : sysAt t p = some q) :
    ∃ t' x, removeAt t p = some (t', x) ∧ WF 1 1 t' ∧ pop p (skel t) = some (skel t') ∧ x.before = 1 ∧ x.after = 1 ∧
      dims x = (dims q).map fun _ => 1 := by
  obtain ⟨t', x, h⟩ := remove_spec q t p q hp hw hg rfl
  refine ⟨t', x, ?_, h.2⟩
  cases p with
  | nil => exact absurd rfl hp
  | cons i p => simp [removeAt, hg, h.1]

/-- A removed single system is a single system of dimension one. -/
theorem removeAt_single {t q t' x : Sys} {p : List Nat} (hw : WF 1 1 t) (hg : sysAt t p = some q)
    (hk : q.kind ≠ some true) (h : removeAt t p = some (t', x)) : x = single 1 := by
  cases p with
  | nil => simp [removeAt] at h
  | cons i p =>
    cases q with
    | node k d b a s =>
      simp only [kind] at hk
      simp only [removeAt, hg, remove, hk, if_false] at h
      obtain ⟨⟨t₁, o⟩, h1⟩ := setDim_total 1 (by simp) (i :: p) t _ hg
      obtain ⟨q', hg1, hq'⟩ := get_setDim 1 (i :: p) t _ hg t₁ o h1
      obtain ⟨t₂, h2⟩ := pop_of_get (i :: p) t₁ q' (by simp) hg1
      simp only [h1, hg1, h2, Option.some.injEq, Prod.mk.injEq] at h
      have hqw := get_wf 1 1 (i :: p) t _ hw hg
      unfold WF at hqw
      obtain ⟨rfl, _⟩ := hqw.2.2.2 hk
      rw [← h.2]
      cases k with
      | none =>
        simp [setDim] at hq'
        obtain ⟨rfl, _⟩ := hq'
        simp [detach, setBefore, setAfter, scaleBefore, scaleAfter, single]
      | some v =>
        cases v with
        | true => exact absurd rfl hk
        | false =>
          simp [setDim] at hq'
          obtain ⟨rfl, _⟩ := hq'
          simp [detach, setBefore, setAfter, scaleBefore, scaleAfter, single]

theorem mem_set_of {α : Type} {w : List α} {i : Nat} {a b : α} (h : b ∈ w.set i a) : b ∈ w ∨ b = a := by
  exact List.mem_or_eq_of_mem_set h

theorem wf_step {w w' : List Sys} {o : Op} (hw : ∀ t ∈ w, WF 1 1 t) (h : step w o = some w') : ∀ t ∈ w', WF 1 1 t := by
  intro t ht
  cases o with
  | new =>
    simp only [step, Option.some.injEq] at h
    subst h
    rcases List.mem_append.1 ht with h | h
    · exact hw t h
    · simp only [List.mem_singleton] at h; subst h; exact wf_blank
  | newSingle d =>
    simp only [step] at h
    by_cases hd : d = 0
    · simp [hd] at h
    · simp only [hd, if_false, Option.some.injEq] at h
      subst h
      rcases List.mem_append.1 ht with h | h
      · exact hw t h
      · simp only [List.mem_singleton] at h; subst h; exact wf_single d (Nat.pos_of_ne_zero hd)
  | add i j =>
    simp only [step] at h
    by_cases hij : i = j
    · simp [hij] at h
    · simp only [hij, if_false] at h
      cases hi : w[i]? with
      | none => simp [hi] at h
      | some p =>
        cases hj : w[j]? with
        | none => simp [hi, hj] at h
        | some c =>
          cases ha : addSub p c with
          | none => simp [hi, hj, ha] at h
          | some p' =>
            simp only [hi, hj, ha, Option.some.injEq] at h
            subst h
            have hp' := wf_addSub (hw p (List.mem_of_getElem? hi)) (hw c (List.mem_of_getElem? hj)) ha
            rcases mem_set_of (List.mem_of_mem_eraseIdx ht) with h | rfl
            · exact hw t h
            · exact hp'
  | dim i p d =>
    simp only [step] at h
    cases hi : w[i]? with
    | none => simp [hi] at h
    | some r =>
      cases hs : setDim d p r with
      | none => simp [hi, hs] at h
      | some res =>
        obtain ⟨r', o⟩ := res
        simp only [hi, hs, Option.some.injEq] at h
        subst h
        rcases mem_set_of ht with h | rfl
        · exact hw t h
        · exact (wf_setDim d p r _ o 1 1 Nat.one_pos Nat.one_pos (hw r (List.mem_of_getElem? hi)) hs).1
  | removeForget i p =>
    simp only [step] at h
    cases hi : w[i]? with
    | none => simp [hi] at h
    | some r =>
      cases hs : removeAt r p with
      | none => simp [hi, hs] at h
      | some res =>
        obtain ⟨r', x⟩ := res
        simp only [hi, hs, Option.some.injEq] at h
        subst h
        have hr := hw r (List.mem_of_getElem? hi)
        rcases mem_set_of ht with h | rfl
        · exact hw t h
        · cases p with
          | nil => simp [removeAt] at hs
          | cons i' p' =>
            cases hg : sysAt r (i' :: p') with
            | none => simp [removeAt, hg] at hs
            | some q =>
              obtain ⟨t₁, x₁, h1, h2, _⟩ := removeAt_spec hr (by simp) hg
              rw [hs] at h1
              simp only [Option.some.injEq, Prod.mk.injEq] at h1
              rw [h1.1]; exact h2
  | removeSingle i p =>
    simp only [step] at h
    cases hi : w[i]? with
    | none => simp [hi] at h
    | some r =>
      cases hg : sysAt r p with
      | none => simp [hi, hg] at h
      | some q =>
        by_cases hk : q.kind = some true
        · simp [hi, hg, hk] at h
        · cases hs : removeAt r p with
          | none => simp [hi, hg, hk, hs] at h
          | some res =>
            obtain ⟨r', x⟩ := res
            simp only [hi, hg, hk, if_false, hs, Option.some.injEq] at h
            subst h
            have hr := hw r (List.mem_of_getElem? hi)
            have hp : p ≠ [] := by rintro rfl; simp [removeAt] at hs
            obtain ⟨t₁, x₁, h1, h2, _⟩ := removeAt_spec hr hp hg
            rw [hs] at h1
            simp only [Option.some.injEq, Prod.mk.injEq] at h1
            rcases List.mem_append.1 ht with h | h
            · rcases mem_set_of h with h | rfl
              · exact hw t h
              · rw [h1.1]; exact h2
            · simp only [List.mem_singleton] at h
              rw [h, removeAt_single hr hg hk hs]
              exact wf_single 1 Nat.one_pos

theorem wf_run : ∀ (ops : List Op) (w w' : List Sys), (∀ t ∈ w, WF 1 1 t) → run w ops = some w' → ∀ t ∈ w', WF 1 1 t
  | [], w, w', hw, h => by
    simp only [run, Option.some.injEq] at h
    subst h; exact hw
  | o :: r, w, w', hw, h => by
    simp only [run] at h
    cases hs : step w o with
    | none => simp [hs] at h
    | some w₁ =>
      simp only [hs] at h
      exact wf_run r w₁ w' (wf_step hw hs) h

/-- **C26.** Whatever a user does, building composites from stand-alone systems (single or composite, nested as deep as they
like), changing dimensions of single systems at any depth, and removing systems at any depth, every system of every
structure knows the product of the dimensions of all single systems left and right of it, and composites have the product
of their parts as dimension.

Partial: sub-systems are only added to outermost composites (`C27_iff` says what happens otherwise), and a removed composite
is not used again (`C28_zero` says why). -/
theorem C26_positions_partial (ops : List Op) (w : List Sys) (h : run [] ops = some w) : ∀ t ∈ w, Positions t :=
  fun t ht => ((wf_iff t).1 (wf_run ops [] w (by simp) h t ht)).2

/-- **C26.** Setting the dimension of the single system at path `p` of a consistent structure raises nothing, changes exactly
that dimension, and leaves a consistent structure. -/
theorem C26_dimension {t q : Sys} {p : List Nat} (hs : Shape t) (ht : Positions t) (hg : sysAt t p = some q)
    (hk : q.kind ≠ some true) (d : Nat) (hd : d ≠ 0) :
    ∃ t' o, setDim d p t = some (t', o) ∧ Positions t' ∧ Shape t' ∧ dims t = leftOf t p ++ [q.dimension] ++ rightOf t p ∧
      dims t' = leftOf t p ++ [d] ++ rightOf t p ∧ ∃ q', sysAt t' p = some q' ∧ q'.dimension = d := by
  have hw := (wf_iff t).2 ⟨hs, ht⟩
  obtain ⟨⟨t', o⟩, h⟩ := setDim_total d hd p t q hg
  have hw' := (wf_setDim d p t t' o 1 1 Nat.one_pos Nat.one_pos hw h).1
  obtain ⟨q', hg', hq'⟩ := get_setDim d p t q hg t' o h
  have hqw := get_wf 1 1 p t q hw hg
  have hq : dims q = [q.dimension] ∧ dims q' = [d] ∧ q'.dimension = d := by
    cases q with
    | node k d₀ b a s =>
      simp only [kind] at hk
      unfold WF at hqw
      obtain ⟨rfl, _⟩ := hqw.2.2.2 hk
      cases k with
      | none =>
        simp [setDim, hd] at hq'
        obtain ⟨rfl, _⟩ := hq'
        simp [dims, dimension]
      | some v =>
        cases v with
        | true => exact absurd rfl hk
        | false =>
          simp [setDim, hd] at hq'
          obtain ⟨rfl, _⟩ := hq'
          simp [dims, dimension]
  have h' := (wf_iff t').1 hw'
  refine ⟨t', o, h, h'.2, h'.1, ?_, ?_, q', hg', hq.2.2⟩
  · have := dims_modifyAt some p t t q hs (modifyAt_some p t q hg) hg
    rw [this, hq.1]
  · obtain ⟨f, hf⟩ := skel_setDim d p t t' o h
    have := dims_modifyAt f p (skel t) (skel t') (skel q') (shape_skel t hs) hf (get_skel p t' q' hg')
    rw [dims_skel, dims_skel, (sides_skel p t).1, (sides_skel p t).2, hq.2.1] at this
    exact this

/-- **C26.** Removing the system at path `p` of a consistent structure raises nothing, removes exactly the single systems in it,
and leaves a consistent structure. -/
theorem C26_removal {t q : Sys} {p : List Nat} (hs : Shape t) (ht : Positions t) (hp : p ≠ []) (hg : sysAt t p = some q) :
    ∃ t' x, removeAt t p = some (t', x) ∧ Positions t' ∧ Shape t' ∧ dims t = leftOf t p ++ dims q ++ rightOf t p ∧
      dims t' = leftOf t p ++ rightOf t p := by
  have hw := (wf_iff t).2 ⟨hs, ht⟩
  obtain ⟨t', x, h1, h2, h3, _⟩ := removeAt_spec hw hp hg
  have h' := (wf_iff t').1 h2
  refine ⟨t', x, h1, h'.2, h'.1, dims_modifyAt some p t t q hs (modifyAt_some p t q hg) hg, ?_⟩
  have := dims_pop p (skel t) (skel t') (shape_skel t hs) h3
  rw [dims_skel, (sides_skel p t).1, (sides_skel p t).2] at this
  exact this

/-- **C26.** Adding a stand-alone system to an outermost composite appends its single systems, and leaves a consistent structure. -/
theorem C26_addition {p c : Sys} (hsp : Shape p) (hp : Positions p) (hsc : Shape c) (hc : Positions c)
    (hk : p.kind = some true) :
    ∃ p', addSub p c = some p' ∧ Positions p' ∧ Shape p' ∧ dims p' = dims p ++ dims c := by
  obtain ⟨p', h1, _, h3, _⟩ := addSub_composite p c (by simp [hk])
  have h := wf_addSub ((wf_iff p).2 ⟨hsp, hp⟩) ((wf_iff c).2 ⟨hsc, hc⟩) h1
  exact ⟨p', h1, ((wf_iff p').1 h).2, ((wf_iff p').1 h).1, h3 hk⟩

/-- A history with nesting, a dimension change inside and a removal: systems of dimensions 2, 3 in one composite, that and a
system of dimension 5 in another, the 3 becomes 7, the 2 is removed. -/
def history : List Op :=
  [.new, .newSingle 2, .newSingle 3, .add 0 1, .add 0 1, .new, .add 1 0, .newSingle 5, .add 0 1, .dim 0 [0, 1] 7]

example : run [] history = some [node (some true) 1 1 1
    [node (some true) 1 1 5 [node (some false) 2 1 35 [], node (some false) 7 2 5 []], node (some false) 5 14 1 []]] := by
  rfl

example : (run [] (history ++ [.removeSingle 0 [0, 0]])) = some [node (some true) 1 1 1
    [node (some true) 1 1 5 [node (some false) 7 1 5 []], node (some false) 5 7 1 []], single 1] := by
  rfl

/-! ### C27 -/

/-- The system at the path has no neighbours: every composite on the way contains only the next one. -/
def Alone : Sys → List Nat → Prop
  | _, [] => True
  | node _ _ _ _ s, i :: p => s.length = 1 ∧ (match s[i]? with | none => True | some q => Alone q p)

theorem wfL_after_unique {l : List Sys} {L R R' : Nat} (hl : l ≠ []) (h : WFL L R l) (h' : WFL L R' l) : R = R' := by
  cases l with
  | nil => exact absurd rfl hl
  | cons s r =>
    simp only [WFL] at h h'
    have := (wf_after h.1).symm.trans (wf_after h'.1)
    exact Nat.eq_of_mul_eq_mul_left (wfL_pos h.2) this

theorem wfL_before_unique {l : List Sys} {L L' R : Nat} (hl : l ≠ []) (h : WFL L R l) (h' : WFL L' R l) : L = L' := by
  cases l with
  | nil => exact absurd rfl hl
  | cons s r =>
    simp only [WFL] at h h'
    exact (wf_before h.1).symm.trans (wf_before h'.1)

theorem grow_wf (c : Sys) (hc : WF 1 1 c) : ∀ (p : List Nat) (t t' q : Sys) (L R : Nat), 0 < L → 0 < R → WF L R t →
    sysAt t p = some q → q.kind = some true → modifyAt (fun s => addSub s c) p t = some t' →
    t'.dimension = t.dimension * c.dimension ∧
    (WF L R t' ↔ (Alone t p ∨ c.dimension = 1) ∧ q.before = 1 ∧ q.after = 1)
  | [], node k d b a s, t', q, L, R, hL, hR, hw, hg, hqk, h => by
    simp only [sysAt, Option.some.injEq] at hg
    subst hg
    simp only [kind] at hqk
    subst hqk
    simp only [modifyAt, addSub, Option.some.injEq] at h
    subst h
    unfold WF at hw
    obtain ⟨rfl, rfl, h1, h2⟩ := hw
    have hs := h1 rfl
    have hl := wfL_addLoop s c b a 1 1 Nat.one_pos hR hs hc
    refine ⟨by simp [dimension, dimProd_append, dimProd, addLoop_dimProd, addLoop_dimension], ?_⟩
    simp only [Alone, true_or, true_and, before, after]
    unfold WF
    constructor
    · intro hw
      have := hw.2.2.1 rfl
      rw [wfL_append] at this
      simp only [WFL, dimProd, addLoop_dimProd, and_true, Nat.one_mul] at this
      have e1 := (wf_before this.2).symm.trans (wf_before hl.2)
      have e2 := (wf_after this.2).symm.trans (wf_after hl.2)
      exact ⟨Nat.eq_of_mul_eq_mul_right (wfL_pos hs) e1, e2⟩
    · rintro ⟨rfl, rfl⟩
      refine ⟨rfl, rfl, fun _ => ?_, fun hk => absurd rfl hk⟩
      rw [wfL_append]
      simp only [WFL, dimProd, addLoop_dimProd, addLoop_dimension, and_true, Nat.one_mul, Nat.mul_one] at hl ⊢
      exact hl
  | i :: p, node k d b a s, t', q, L, R, hL, hR, hw, hg, hqk, h => by
    unfold WF at hw
    obtain ⟨rfl, rfl, h1, h2⟩ := hw
    cases hq : s[i]? with
    | none => simp [sysAt, hq] at hg
    | some x =>
      have hk : k = some true := by
        by_contra hk
        rw [(h2 hk).1] at hq
        simp at hq
      subst hk
      obtain ⟨l, r, rfl, rfl⟩ := split_at s i x hq
      simp only [sysAt, hq] at hg
      have hs := h1 rfl
      rw [wfL_append] at hs
      simp only [WFL, dimProd] at hs
      obtain ⟨hl, hxw, hr⟩ := hs
      have hLl : 0 < b * dimProd l := Nat.mul_pos hL (wfL_pos hl)
      have hRr : 0 < dimProd r * a := Nat.mul_pos (wfL_pos hr) hR
      cases hx : modifyAt (fun s => addSub s c) p x with
      | none => simp [modifyAt, hq, hx] at h
      | some x' =>
        obtain ⟨e, ih⟩ := grow_wf c hc p x x' q _ _ hLl hRr hxw hg hqk hx
        simp only [modifyAt, hq, hx, Option.some.injEq, set_append] at h
        subst h
        refine ⟨by simp only [dimension, if_true, dimProd_append, dimProd, e]; ring, ?_⟩
        have hcd := wf_pos hc
        have hxd := wf_pos hxw
        have hwf : WF b a (node (some true) d b a (l ++ x' :: r)) ↔
            WFL b (x'.dimension * dimProd r * a) l ∧ WF (b * dimProd l) (dimProd r * a) x' ∧
              WFL (b * dimProd l * x'.dimension) a r := by
          constructor
          · intro h
            unfold WF at h
            have := h.2.2.1 rfl
            rw [wfL_append] at this
            simpa only [WFL, dimProd] using this
          · intro h
            unfold WF
            refine ⟨rfl, rfl, fun _ => ?_, fun hk => absurd rfl hk⟩
            rw [wfL_append]
            simpa only [WFL, dimProd] using h
        rw [hwf, ih, e]
        have hal : Alone (node (some true) d b a (l ++ x :: r)) (l.length :: p) ↔ l = [] ∧ r = [] ∧ Alone x p := by
          simp only [Alone, hq, List.length_append, List.length_cons]
          constructor
          · rintro ⟨h, h'⟩
            exact ⟨List.length_eq_zero_iff.1 (by omega), List.length_eq_zero_iff.1 (by omega), h'⟩
          · rintro ⟨rfl, rfl, h'⟩
            exact ⟨rfl, h'⟩
        rw [hal]
        have key1 : WFL b (x.dimension * c.dimension * dimProd r * a) l → l = [] ∨ c.dimension = 1 := by
          intro h
          by_cases hn : l = []
          · exact Or.inl hn
          · right
            have := wfL_after_unique hn hl h
            have h3 : x.dimension * dimProd r * a * 1 = x.dimension * dimProd r * a * c.dimension := by
              rw [Nat.mul_one]; exact this.trans (by ring)
            exact (Nat.eq_of_mul_eq_mul_left (Nat.mul_pos (Nat.mul_pos hxd (wfL_pos hr)) hR) h3).symm
        have key2 : WFL (b * dimProd l * (x.dimension * c.dimension)) a r → r = [] ∨ c.dimension = 1 := by
          intro h
          by_cases hn : r = []
          · exact Or.inl hn
          · right
            have := wfL_before_unique hn hr h
            have h3 : b * dimProd l * x.dimension * 1 = b * dimProd l * x.dimension * c.dimension := by
              rw [Nat.mul_one]; exact this.trans (by ring)
            exact (Nat.eq_of_mul_eq_mul_left (Nat.mul_pos hLl hxd) h3).symm
        constructor
        · rintro ⟨w1, ⟨w2, w3⟩, w4⟩
          refine ⟨?_, w3⟩
          by_cases hc1 : c.dimension = 1
          · exact Or.inr hc1
          · left
            exact ⟨(key1 w1).resolve_right hc1, (key2 w4).resolve_right hc1, w2.resolve_right hc1⟩
        · rintro ⟨h, h3⟩
          rcases h with ⟨rfl, rfl, h⟩ | h
          · exact ⟨by simp [WFL], ⟨Or.inl h, h3⟩, by simp [WFL]⟩
          · simp only [h, Nat.mul_one]
            exact ⟨hl, ⟨Or.inr trivial, h3⟩, hr⟩

theorem modifyAt_total (f : Sys → Option Sys) : ∀ (p : List Nat) (t q q' : Sys), sysAt t p = some q → f q = some q' →
    ∃ t', modifyAt f p t = some t'
  | [], t, q, q', hg, hf => by
    cases t
    simp only [sysAt, Option.some.injEq] at hg
    subst hg
    exact ⟨q', hf⟩
  | i :: p, node k d b a s, q, q', hg, hf => by
    cases hq : s[i]? with
    | none => simp [sysAt, hq] at hg
    | some x =>
      simp only [sysAt, hq] at hg
      obtain ⟨x', hx⟩ := modifyAt_total f p x q q' hg hf
      exact ⟨node k d b a (s.set i x'), by simp [modifyAt, hq, hx]⟩

/-- **C27.** What happens when a sub-system `c` is added to the composite `q` at path `p` of a larger structure: the call never
raises, and the structure is consistent afterwards exactly when nothing of dimension greater than one surrounds `q` and, in
addition, `q` has no neighbours at all or `c` has dimension one.  In particular it never is when a system of dimension two or more
stands beside `q` (`C27_not_consistent`): the claim of C27 is false for the code. -/
theorem C27_iff {t q c : Sys} {p : List Nat} (hs : Shape t) (ht : Positions t) (hsc : Shape c) (hc : Positions c)
    (hg : sysAt t p = some q) (hk : q.kind = some true) :
    ∃ t', modifyAt (fun s => addSub s c) p t = some t' ∧
      (Positions t' ↔ (Alone t p ∨ c.dimension = 1) ∧ (leftOf t p).prod = 1 ∧ (rightOf t p).prod = 1) := by
  have hw := (wf_iff t).2 ⟨hs, ht⟩
  obtain ⟨q', hq', _⟩ := addSub_composite q c (by simp [hk])
  obtain ⟨t', h⟩ := modifyAt_total (fun s => addSub s c) p t q q' hg hq'
  refine ⟨t', h, ?_⟩
  have hgrow := (grow_wf c ((wf_iff c).2 ⟨hsc, hc⟩) p t t' q 1 1 Nat.one_pos Nat.one_pos hw hg hk h).2
  have hp := ht p q hg
  rw [← hp.1, ← hp.2.1, ← hgrow, wf_iff]
  constructor
  · exact fun h' => ⟨shape_modifyAt _ p t t' hs (fun q q' hq hqq => shape_addSub q c q' hq hsc hqq) h, h'⟩
  · exact fun h' => h'.2

theorem dvd_prod : ∀ (l : List Nat) (d : Nat), d ∈ l → d ∣ l.prod
  | [], _, h => by simp at h
  | x :: r, d, h => by
    rw [List.prod_cons]
    rcases List.mem_cons.1 h with rfl | h
    · exact Nat.dvd_mul_right _ _
    · exact Nat.dvd_mul_left_of_dvd (dvd_prod r d h) _

/-- **C27 is false of the code**: with any system of dimension two or more beside the composite (before or after it, at any level),
growing the composite leaves wrong dimensions before or after some system. -/
theorem C27_not_consistent {t q c : Sys} {p : List Nat} (hs : Shape t) (ht : Positions t) (hsc : Shape c) (hc : Positions c)
    (hg : sysAt t p = some q) (hk : q.kind = some true) (d : Nat) (hd : d ∈ leftOf t p ++ rightOf t p) (h2 : 2 ≤ d) :
    ∃ t', modifyAt (fun s => addSub s c) p t = some t' ∧ ¬ Positions t' := by
  obtain ⟨t', h, hiff⟩ := C27_iff hs ht hsc hc hg hk
  refine ⟨t', h, fun hp => ?_⟩
  obtain ⟨_, h3, h4⟩ := hiff.1 hp
  have h1 : (leftOf t p ++ rightOf t p).prod = 1 := by rw [List.prod_append, h3, h4]
  have hdvd := dvd_prod _ d hd
  rw [h1] at hdvd
  have := Nat.dvd_one.1 hdvd
  omega

/-- **C27**, what remains true: growing an outermost composite. -/
theorem C27_outermost_partial {t c : Sys} (hs : Shape t) (ht : Positions t) (hsc : Shape c) (hc : Positions c)
    (hk : t.kind = some true) : ∃ t', addSub t c = some t' ∧ Positions t' ∧ Shape t' := by
  obtain ⟨t', h1, h2, h3, _⟩ := C26_addition hs ht hsc hc hk
  exact ⟨t', h1, h2, h3⟩

/-- Two composites of one and two qubits, the first one grown by a third qubit afterwards.  The new qubit believes to be at the right
end (`after = 1`) and its composite's neighbour still has dimension two before it. -/
example :
    modifyAt (fun s => addSub s (single 2)) [0]
      (node (some true) 1 1 1 [node (some true) 1 1 4 [node (some false) 2 1 4 []],
        node (some true) 1 2 1 [node (some false) 2 2 2 [], node (some false) 2 4 1 []]]) =
    some (node (some true) 1 1 1 [node (some true) 1 1 4 [node (some false) 2 1 8 [], node (some false) 2 2 1 []],
        node (some true) 1 2 1 [node (some false) 2 2 2 [], node (some false) 2 4 1 []]]) := by rfl

/-! ### C28 -/

/-- **C28.** A removed system stands alone: nothing before and nothing after it. -/
theorem C28_stands_alone_partial {t q : Sys} {p : List Nat} (hs : Shape t) (ht : Positions t) (hp : p ≠ [])
    (hg : sysAt t p = some q) : ∃ t' x, removeAt t p = some (t', x) ∧ x.before = 1 ∧ x.after = 1 ∧
      (dims x).length = (dims q).length := by
  obtain ⟨t', x, h1, _, _, h4, h5, h6⟩ := removeAt_spec ((wf_iff t).2 ⟨hs, ht⟩) hp hg
  exact ⟨t', x, h1, h4, h5, by simp [h6]⟩

/-- **C28 is false of the code**: every removed system comes back with all its dimensions equal to one (the statement meant to
restore the dimension writes it to the wrong object), so it has lost its dimension unless that was one. -/
theorem C28_dimension_lost {t q : Sys} {p : List Nat} (hs : Shape t) (ht : Positions t) (hp : p ≠ [])
    (hg : sysAt t p = some q) : ∃ t' x, removeAt t p = some (t', x) ∧ dims x = (dims q).map (fun _ => 1) ∧
      x.dimension = 1 ∧ (q.dimension ≠ 1 → x.dimension ≠ q.dimension) := by
  obtain ⟨t', x, h1, _, _, _, _, h6⟩ := removeAt_spec ((wf_iff t).2 ⟨hs, ht⟩) hp hg
  have hd : x.dimension = 1 := by
    rw [dimension_eq, h6]
    exact List.prod_eq_one (by simp)
  exact ⟨t', x, h1, h6, hd, fun h => by rw [hd]; exact fun h' => h h'.symm⟩

/-- **C28.** A removed composite is not even consistent inside: when something of dimension two stood after it, its parts come back
with dimension zero after them, and every later change of a dimension divides by that zero.  Here two qubits in a composite followed by
a third qubit. -/
theorem C28_zero : ∃ t' x y, run [] [.new, .newSingle 2, .newSingle 2, .add 0 1, .add 0 1, .new, .add 1 0, .newSingle 2, .add 0 1]
      = some [t'] ∧ Positions t' ∧ removeAt t' [0] = some (y, x) ∧ ¬ Positions x ∧
      ∃ z, sysAt x [0] = some z ∧ z.after = 0 := by
  refine ⟨_, _, _, rfl, ?_, rfl, ?_, _, rfl, rfl⟩
  · exact C26_positions_partial [.new, .newSingle 2, .newSingle 2, .add 0 1, .add 0 1, .new, .add 1 0, .newSingle 2, .add 0 1]
      _ rfl _ (List.mem_singleton.2 rfl)
  · intro h
    have := (h [0] _ rfl).2.1
    revert this
    decide

end Verif.Tree
