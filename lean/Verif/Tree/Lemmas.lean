import Verif.Tree.Spec
import Mathlib.Tactic.Ring
import Mathlib.Tactic.Linarith

/-! # The setters and the structural changes keep a consistent structure consistent -/
namespace Verif.Tree
open Sys

theorem dimProd_append (a b : List Sys) : dimProd (a ++ b) = dimProd a * dimProd b := by
  induction a with
  | nil => simp [dimProd]
  | cons s r ih => simp [dimProd, ih, Nat.mul_assoc]

theorem dimsL_append (a b : List Sys) : dimsL (a ++ b) = dimsL a ++ dimsL b := by
  induction a with
  | nil => simp [dimsL]
  | cons s r ih => simp [dimsL, ih]

mutual
theorem dimension_eq : ∀ s : Sys, s.dimension = (dims s).prod
  | node k d b a s => by
    unfold dimension dims
    split
    · exact dimProd_eq s
    · simp
theorem dimProd_eq : ∀ s : List Sys, dimProd s = (dimsL s).prod
  | [] => by simp [dimProd, dimsL]
  | s :: r => by simp [dimProd, dimsL, dimension_eq s, dimProd_eq r]
end

mutual
theorem shape_dimension_pos : ∀ s : Sys, Shape s → 0 < s.dimension
  | node k d b a s, h => by
    unfold Shape at h
    unfold dimension
    split
    · rename_i hk; exact shapeL_dimProd_pos s (h.1 hk)
    · rename_i hk; exact (h.2 hk).2
theorem shapeL_dimProd_pos : ∀ s : List Sys, ShapeL s → 0 < dimProd s
  | [], _ => by simp [dimProd]
  | s :: r, h => by
    simp only [ShapeL] at h
    simp only [dimProd]
    exact Nat.mul_pos (shape_dimension_pos s h.1) (shapeL_dimProd_pos r h.2)
end

mutual
theorem wf_shape : ∀ (s : Sys) (L R : Nat), WF L R s → Shape s
  | node k d b a s, L, R, h => by
    unfold WF at h
    unfold Shape
    exact ⟨fun hk => wfL_shape s L R (h.2.2.1 hk), h.2.2.2⟩
theorem wfL_shape : ∀ (s : List Sys) (L R : Nat), WFL L R s → ShapeL s
  | [], _, _, _ => by simp [ShapeL]
  | s :: r, L, R, h => by
    simp only [WFL] at h
    simp only [ShapeL]
    exact ⟨wf_shape s _ _ h.1, wfL_shape r _ _ h.2⟩
end

theorem wf_pos {L R : Nat} {s : Sys} (h : WF L R s) : 0 < s.dimension := shape_dimension_pos s (wf_shape s L R h)
theorem wfL_pos {L R : Nat} {s : List Sys} (h : WFL L R s) : 0 < dimProd s :=
  shapeL_dimProd_pos s (wfL_shape s L R h)

theorem wf_before {L R : Nat} {s : Sys} (h : WF L R s) : s.before = L := by
  cases s; unfold WF at h; exact h.1
theorem wf_after {L R : Nat} {s : Sys} (h : WF L R s) : s.after = R := by
  cases s; unfold WF at h; exact h.2.1

/-! ### The setters of the positions -/

mutual
theorem dimension_setBefore : ∀ (s : Sys) (v : Nat), (setBefore v s).dimension = s.dimension
  | node k d b a s, v => by
    unfold setBefore dimension
    split
    · exact dimProd_scaleBefore s v b
    · rfl
theorem dimProd_scaleBefore : ∀ (s : List Sys) (v o : Nat), dimProd (scaleBefore v o s) = dimProd s
  | [], _, _ => by simp [scaleBefore]
  | s :: r, v, o => by simp [scaleBefore, dimProd, dimension_setBefore s, dimProd_scaleBefore r]
end

mutual
theorem dimension_setAfter : ∀ (s : Sys) (v : Nat), (setAfter v s).dimension = s.dimension
  | node k d b a s, v => by
    unfold setAfter dimension
    split
    · exact dimProd_scaleAfter s v a
    · rfl
theorem dimProd_scaleAfter : ∀ (s : List Sys) (v o : Nat), dimProd (scaleAfter v o s) = dimProd s
  | [], _, _ => by simp [scaleAfter]
  | s :: r, v, o => by simp [scaleAfter, dimProd, dimension_setAfter s, dimProd_scaleAfter r]
end

theorem scale_div (L x v : Nat) (hL : 0 < L) : L * x * v / L = v * x := by
  rw [Nat.mul_assoc, Nat.mul_div_cancel_left _ hL, Nat.mul_comm]

mutual
theorem wf_setBefore : ∀ (s : Sys) (L R v : Nat), 0 < L → WF L R s → WF v R (setBefore v s)
  | node k d b a s, L, R, v, hL, h => by
    unfold WF at h
    obtain ⟨rfl, rfl, h1, h2⟩ := h
    unfold setBefore WF
    refine ⟨rfl, rfl, fun hk => ?_, fun hk => ?_⟩
    · have := wfL_scaleBefore s b a v 1 hL Nat.one_pos (by simpa using h1 hk)
      simpa using this
    · obtain ⟨hs, hd⟩ := h2 hk
      subst hs
      exact ⟨by simp [scaleBefore], hd⟩
theorem wfL_scaleBefore : ∀ (s : List Sys) (L R v x : Nat), 0 < L → 0 < x → WFL (L * x) R s →
    WFL (v * x) R (scaleBefore v L s)
  | [], _, _, _, _, _, _, _ => by simp [scaleBefore, WFL]
  | s :: r, L, R, v, x, hL, hx, h => by
    simp only [WFL] at h
    simp only [scaleBefore, WFL, dimProd_scaleBefore, dimension_setBefore]
    refine ⟨?_, ?_⟩
    · rw [wf_before h.1, scale_div L x v hL]
      exact wf_setBefore s (L * x) _ _ (Nat.mul_pos hL hx) h.1
    · have := wfL_scaleBefore r L R v (x * s.dimension) hL (Nat.mul_pos hx (wf_pos h.1))
        (by rw [← Nat.mul_assoc]; exact h.2)
      rw [← Nat.mul_assoc] at this
      exact this
end

mutual
theorem wf_setAfter : ∀ (s : Sys) (L R v : Nat), 0 < R → WF L R s → WF L v (setAfter v s)
  | node k d b a s, L, R, v, hR, h => by
    unfold WF at h
    obtain ⟨rfl, rfl, h1, h2⟩ := h
    unfold setAfter WF
    refine ⟨rfl, rfl, fun hk => wfL_scaleAfter s b a v hR (h1 hk), fun hk => ?_⟩
    obtain ⟨hs, hd⟩ := h2 hk
    subst hs
    exact ⟨by simp [scaleAfter], hd⟩
theorem wfL_scaleAfter : ∀ (s : List Sys) (L R v : Nat), 0 < R → WFL L R s → WFL L v (scaleAfter v R s)
  | [], _, _, _, _, _ => by simp [scaleAfter, WFL]
  | s :: r, L, R, v, hR, h => by
    simp only [WFL] at h
    simp only [scaleAfter, WFL, dimProd_scaleAfter, dimension_setAfter]
    refine ⟨?_, wfL_scaleAfter r _ R v hR h.2⟩
    have hv : dimProd r * R * v / R = dimProd r * v := by
      rw [Nat.mul_comm (dimProd r) R, scale_div R (dimProd r) v hR, Nat.mul_comm]
    rw [wf_after h.1, hv]
    exact wf_setAfter s L _ _ (Nat.mul_pos (wfL_pos h.2) hR) h.1
end

theorem shape_of_wf_set {L R v : Nat} {s : Sys} (hL : 0 < L) (h : WF L R s) : Shape (setBefore v s) :=
  wf_shape _ _ _ (wf_setBefore s L R v hL h)

/-! ### Neighbours -/

theorem wfL_append (a b : List Sys) (L R : Nat) :
    WFL L R (a ++ b) ↔ WFL L (dimProd b * R) a ∧ WFL (L * dimProd a) R b := by
  induction a generalizing L with
  | nil => simp [WFL, dimProd]
  | cons s r ih =>
    simp only [List.cons_append, WFL, dimProd, dimProd_append, ih, Nat.mul_assoc, and_assoc]

theorem addLoop_dimension (s : List Sys) (c : Sys) : (addLoop s c).2.dimension = c.dimension := by
  induction s generalizing c with
  | nil => rfl
  | cons q r ih => simp [addLoop, ih, dimension_setBefore]

theorem addLoop_dimProd (s : List Sys) (c : Sys) : dimProd (addLoop s c).1 = dimProd s := by
  induction s generalizing c with
  | nil => rfl
  | cons q r ih => simp [addLoop, ih, dimension_setAfter, dimProd]

/-- `__addSub`: the present sub-systems sysAt `c` behind them, and `c` gets all of them in front. -/
theorem wfL_addLoop (s : List Sys) (c : Sys) (L R B A : Nat) (hB : 0 < B) (hR : 0 < R)
    (hs : WFL L R s) (hc : WF B A c) :
    WFL L (c.dimension * R) (addLoop s c).1 ∧ WF (B * dimProd s) A (addLoop s c).2 := by
  induction s generalizing c L B with
  | nil => simpa [addLoop, WFL, dimProd] using hc
  | cons q r ih =>
    simp only [WFL] at hs
    have hq := wf_pos hs.1
    have hc' := wf_setBefore c B A (B * q.dimension) hB hc
    have := ih (setBefore (B * q.dimension) c) (L * q.dimension) (B * q.dimension) (Nat.mul_pos hB hq) hs.2 hc'
    simp only [addLoop, wf_before hc, wf_after hs.1, WFL, dimension_setAfter, addLoop_dimProd, dimProd]
    rw [dimension_setBefore] at this
    refine ⟨⟨?_, this.1⟩, ?_⟩
    · have h2 := wf_setAfter q L _ (dimProd r * R * c.dimension) (Nat.mul_pos (wfL_pos hs.2) hR) hs.1
      have e : dimProd r * (c.dimension * R) = dimProd r * R * c.dimension := by ring
      rw [e]; exact h2
    · rw [← Nat.mul_assoc]; exact this.2

/-- Adding a stand-alone system to an outermost composite. -/
theorem wf_addSub {p c p' : Sys} (hp : WF 1 1 p) (hc : WF 1 1 c) (h : addSub p c = some p') : WF 1 1 p' := by
  cases p with
  | node k d b a s =>
    unfold WF at hp
    obtain ⟨rfl, rfl, h1, h2⟩ := hp
    have hs : WFL 1 1 s := by
      by_cases hk : k = some true
      · exact h1 hk
      · rw [(h2 hk).1]; simp [WFL]
    have hl := wfL_addLoop s c 1 1 1 1 Nat.one_pos Nat.one_pos hs hc
    have hp' : p' = node (some true) d 1 1 ((addLoop s c).1 ++ [(addLoop s c).2]) := by
      unfold addSub at h
      split at h
      · cases h
      · rename_i e
        injection e with e1 e2 e3 e4 e5
        subst e1 e2 e3 e4 e5
        exact (Option.some.inj h).symm
    subst hp'
    unfold WF
    refine ⟨rfl, rfl, fun _ => ?_, fun hk => absurd rfl hk⟩
    rw [wfL_append]
    refine ⟨by simpa [dimProd, addLoop_dimension] using hl.1, ?_⟩
    simp only [WFL, dimProd, addLoop_dimProd, Nat.mul_one, and_true]
    simpa using hl.2

/-! ### Changing a dimension -/

/-- `_updateDimension` of one composite whose sub-system at position `i` changed its dimension from `old` to `new`. -/
theorem updateDim_append (a b : List Sys) (q : Sys) (new old : Nat) :
    updateDim a.length new old (a ++ q :: b) =
      a.map (fun s => setAfter (s.after * new / old) s) ++ q ::
        b.map (fun s => setBefore (s.before * new / old) s) := by
  unfold updateDim
  rw [List.mapIdx_append]
  congr 1
  · apply List.ext_getElem
    · simp
    · intro n h1 h2
      simp only [List.length_mapIdx] at h1
      simp [h1]
  · rw [List.mapIdx_cons]
    congr 1
    · simp
    · apply List.ext_getElem
      · simp
      · intro n h1 h2
        simp only [List.getElem_mapIdx, List.getElem_map]
        rw [if_neg (by omega), if_pos (by omega)]

theorem dimProd_mapAfter (s : List Sys) (f : Sys → Nat) : dimProd (s.map fun q => setAfter (f q) q) = dimProd s := by
  induction s with
  | nil => rfl
  | cons q r ih => simp [dimProd, ih, dimension_setAfter]

theorem dimProd_mapBefore (s : List Sys) (f : Sys → Nat) : dimProd (s.map fun q => setBefore (f q) q) = dimProd s := by
  induction s with
  | nil => rfl
  | cons q r ih => simp [dimProd, ih, dimension_setBefore]

/-- Replacing the factor `old` by `new` in what comes after. -/
theorem wfL_mapAfter (s : List Sys) (L x new old : Nat) (ho : 0 < old) (hx : 0 < x)
    (h : WFL L (x * old) s) : WFL L (x * new) (s.map fun q => setAfter (q.after * new / old) q) := by
  induction s generalizing L with
  | nil => simp [WFL]
  | cons q r ih =>
    simp only [WFL] at h
    simp only [List.map_cons, WFL, dimProd_mapAfter, dimension_setAfter]
    refine ⟨?_, ih _ h.2⟩
    rw [wf_after h.1]
    have e : dimProd r * (x * old) * new / old = dimProd r * (x * new) := by
      rw [show dimProd r * (x * old) * new = dimProd r * (x * new) * old by ring]
      exact Nat.mul_div_cancel _ ho
    rw [e]
    exact wf_setAfter q L _ _ (Nat.mul_pos (wfL_pos h.2) (Nat.mul_pos hx ho)) h.1

/-- Replacing the factor `old` by `new` in what comes before. -/
theorem wfL_mapBefore (s : List Sys) (x R new old : Nat) (ho : 0 < old) (hx : 0 < x)
    (h : WFL (x * old) R s) : WFL (x * new) R (s.map fun q => setBefore (q.before * new / old) q) := by
  induction s generalizing x with
  | nil => simp [WFL]
  | cons q r ih =>
    simp only [WFL] at h
    simp only [List.map_cons, WFL, dimProd_mapBefore, dimension_setBefore]
    refine ⟨?_, ?_⟩
    · rw [wf_before h.1]
      have e : x * old * new / old = x * new := by
        rw [show x * old * new = x * new * old by ring]
        exact Nat.mul_div_cancel _ ho
      rw [e]
      exact wf_setBefore q _ _ _ (Nat.mul_pos hx ho) h.1
    · have := ih (x * q.dimension) (Nat.mul_pos hx (wf_pos h.1))
        (by rw [show x * q.dimension * old = x * old * q.dimension by ring]; exact h.2)
      rw [show x * new * q.dimension = x * q.dimension * new by ring]
      exact this

theorem split_at {α : Type} (s : List α) (i : Nat) (q : α) (h : s[i]? = some q) :
    ∃ a b, s = a ++ q :: b ∧ a.length = i := by
  obtain ⟨hi, hq⟩ := List.getElem?_eq_some_iff.1 h
  refine ⟨s.take i, s.drop (i + 1), ?_, by simp; omega⟩
  rw [← hq, List.getElem_cons_drop, List.take_append_drop]

theorem set_append {α : Type} (a b : List α) (q q' : α) : (a ++ q :: b).set a.length q' = a ++ q' :: b := by
  simp

/-- The dimension setter keeps every position consistent; the dimension of the whole changes by the factor `new / old`. -/
theorem wf_setDim (d : Nat) : ∀ (p : List Nat) (t t' : Sys) (o : Option Nat) (L R : Nat), 0 < L → 0 < R → WF L R t →
    setDim d p t = some (t', o) →
    WF L R t' ∧ (o = none → t'.dimension = t.dimension) ∧
      (∀ old, o = some old → 0 < old ∧ ∃ x, 0 < x ∧ t.dimension = x * old ∧ t'.dimension = x * d)
  | [], node k d₀ b a s, t', o, L, R, hL, hR, hw, h => by
    unfold WF at hw
    obtain ⟨rfl, rfl, h1, h2⟩ := hw
    unfold setDim at h
    cases k with
    | none =>
      obtain ⟨rfl, hd⟩ := h2 (by simp)
      simp only [List.isEmpty_nil, Bool.not_true, Option.some.injEq, Bool.false_eq_true, if_false] at h
      by_cases h0 : d = 0
      · simp [h0] at h
      · simp only [h0, if_false, Option.some.injEq, Prod.mk.injEq] at h
        obtain ⟨rfl, rfl⟩ := h
        refine ⟨by unfold WF; exact ⟨rfl, rfl, by simp, fun _ => ⟨rfl, Nat.pos_of_ne_zero h0⟩⟩, by simp, ?_⟩
        intro old ho
        cases ho
        exact ⟨hd, 1, Nat.one_pos, by simp [dimension], by simp [dimension]⟩
    | some v =>
      cases v with
      | true =>
        simp only [if_true, Option.some.injEq, Prod.mk.injEq] at h
        obtain ⟨rfl, rfl⟩ := h
        exact ⟨by unfold WF; exact ⟨rfl, rfl, h1, h2⟩, fun _ => rfl, by simp⟩
      | false =>
        obtain ⟨rfl, hd⟩ := h2 (by simp)
        simp only [Option.some.injEq, Bool.false_eq_true, if_false] at h
        by_cases h0 : d = 0
        · simp [h0] at h
        · simp only [h0, if_false, Option.some.injEq, Prod.mk.injEq] at h
          obtain ⟨rfl, rfl⟩ := h
          refine ⟨by unfold WF; exact ⟨rfl, rfl, by simp, fun _ => ⟨rfl, Nat.pos_of_ne_zero h0⟩⟩, by simp, ?_⟩
          intro old ho
          cases ho
          exact ⟨hd, 1, Nat.one_pos, by simp [dimension], by simp [dimension]⟩
  | i :: p, node k d₀ b a s, t', o, L, R, hL, hR, hw, h => by
    unfold WF at hw
    obtain ⟨rfl, rfl, h1, h2⟩ := hw
    unfold setDim at h
    cases hq : s[i]? with
    | none => simp [hq] at h
    | some q =>
      have hk : k = some true := by
        by_contra hk
        rw [(h2 hk).1] at hq
        simp at hq
      subst hk
      obtain ⟨l, r, rfl, rfl⟩ := split_at s i q hq
      have hs := h1 rfl
      rw [wfL_append] at hs
      simp only [WFL, dimProd] at hs
      obtain ⟨hl, hqw, hr⟩ := hs
      have hLl : 0 < b * dimProd l := Nat.mul_pos hL (wfL_pos hl)
      have hRr : 0 < dimProd r * a := Nat.mul_pos (wfL_pos hr) hR
      simp only [hq] at h
      cases hs' : setDim d p q with
      | none => simp [hs'] at h
      | some res =>
        obtain ⟨q', o'⟩ := res
        have ih := wf_setDim d p q q' o' _ _ hLl hRr hqw hs'
        simp only [hs'] at h
        cases o' with
        | none =>
          simp only [Option.some.injEq, Prod.mk.injEq] at h
          obtain ⟨rfl, rfl⟩ := h
          have hd := ih.2.1 rfl
          simp only [set_append]
          refine ⟨?_, fun _ => ?_, by simp⟩
          · unfold WF
            refine ⟨rfl, rfl, fun _ => ?_, fun hk => absurd rfl hk⟩
            rw [wfL_append]
            simp only [WFL, dimProd, hd]
            exact ⟨hl, ih.1, hr⟩
          · simp [dimension, dimProd_append, dimProd, hd]
        | some old =>
          simp only [Option.some.injEq, Prod.mk.injEq] at h
          obtain ⟨rfl, rfl⟩ := h
          obtain ⟨ho, x, hx, e1, e2⟩ := ih.2.2 old rfl
          simp only [set_append, updateDim_append]
          refine ⟨?_, by simp, ?_⟩
          · unfold WF
            refine ⟨rfl, rfl, fun _ => ?_, fun hk => absurd rfl hk⟩
            rw [wfL_append]
            simp only [WFL, dimProd, dimProd_mapAfter, dimProd_mapBefore, e2]
            refine ⟨?_, ih.1, ?_⟩
            · have := wfL_mapAfter l b (x * dimProd r * a) d old ho
                (Nat.mul_pos (Nat.mul_pos hx (wfL_pos hr)) hR)
                (by rw [show x * dimProd r * a * old = x * old * dimProd r * a by ring, ← e1]; exact hl)
              rw [show x * d * dimProd r * a = x * dimProd r * a * d by ring]
              exact this
            · have := wfL_mapBefore r (b * dimProd l * x) a d old ho (Nat.mul_pos hLl hx)
                (by rw [show b * dimProd l * x * old = b * dimProd l * (x * old) by ring, ← e1]; exact hr)
              rw [show b * dimProd l * (x * d) = b * dimProd l * x * d by ring]
              exact this
          · intro old' hold
            cases hold
            refine ⟨ho, dimProd l * x * dimProd r,
              Nat.mul_pos (Nat.mul_pos (wfL_pos hl) hx) (wfL_pos hr), ?_, ?_⟩
            · simp only [dimension, if_true, dimProd_append, dimProd, e1]; ring
            · simp only [dimension, if_true, dimProd_append, dimProd, dimProd_mapAfter, dimProd_mapBefore, e2]; ring

end Verif.Tree
