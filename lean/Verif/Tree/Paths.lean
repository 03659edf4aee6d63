import Verif.Tree.Lemmas

/-! # Paths, shapes and removal -/
namespace Verif.Tree
open Sys

/-! ### Consistency by paths -/

theorem dimsL_prod (s : List Sys) : (dimsL s).prod = dimProd s := (dimProd_eq s).symm

theorem get_wf (L R : Nat) : ∀ (p : List Nat) (t q : Sys), WF L R t → sysAt t p = some q →
    WF (L * (leftOf t p).prod) ((rightOf t p).prod * R) q
  | [], t, q, h, hg => by
    cases t
    simp only [sysAt, Option.some.injEq] at hg
    subst hg
    simpa [leftOf, rightOf] using h
  | i :: p, node k d b a s, q, h, hg => by
    unfold WF at h
    obtain ⟨rfl, rfl, h1, h2⟩ := h
    cases hq : s[i]? with
    | none => simp [sysAt, hq] at hg
    | some x =>
      have hk : k = some true := by
        by_contra hk
        rw [(h2 hk).1] at hq
        simp at hq
      subst hk
      obtain ⟨l, r, rfl, rfl⟩ := split_at s i x hq
      simp only [sysAt, hq] at hg
      have hs := h1 rfl
      rw [wfL_append] at hs
      simp only [WFL] at hs
      have := get_wf _ _ p x q hs.2.1 hg
      simp only [leftOf, rightOf, hq]
      simpa [dimsL_prod, Nat.mul_assoc] using this

mutual
theorem wf_of_paths : ∀ (t : Sys) (L R : Nat), Shape t →
    (∀ p q, sysAt t p = some q → q.before = L * (leftOf t p).prod ∧ q.after = (rightOf t p).prod * R) → WF L R t
  | node k d b a s, L, R, hsh, h => by
    have h0 := h [] _ rfl
    simp only [before, after, leftOf, rightOf, List.prod_nil, Nat.mul_one, Nat.one_mul] at h0
    unfold Shape at hsh
    unfold WF
    refine ⟨h0.1, h0.2, fun hk => wfL_of_paths s L R (hsh.1 hk) fun i p q x hx hg => ?_, hsh.2⟩
    have := h (i :: p) q (by simp [sysAt, hx, hg])
    simpa [leftOf, rightOf, hx, dimsL_prod, Nat.mul_assoc] using this
theorem wfL_of_paths : ∀ (s : List Sys) (L R : Nat), ShapeL s →
    (∀ i p q x, s[i]? = some x → sysAt x p = some q →
      q.before = L * (dimProd (s.take i) * (leftOf x p).prod) ∧
      q.after = (rightOf x p).prod * (dimProd (s.drop (i + 1)) * R)) → WFL L R s
  | [], _, _, _, _ => by simp [WFL]
  | t :: r, L, R, hsh, h => by
    simp only [ShapeL] at hsh
    simp only [WFL]
    refine ⟨wf_of_paths t L _ hsh.1 fun p q hg => ?_, wfL_of_paths r _ _ hsh.2 fun i p q x hx hg => ?_⟩
    · have := h 0 p q t rfl hg
      simpa [dimProd] using this
    · have := h (i + 1) p q x (by simpa using hx) hg
      simpa [dimProd, Nat.mul_assoc] using this
end

/-- The inductive form and the statement about observable values agree. -/
theorem wf_iff (t : Sys) : WF 1 1 t ↔ Shape t ∧ Positions t := by
  constructor
  · intro h
    refine ⟨wf_shape _ _ _ h, fun p q hg => ?_⟩
    have := get_wf 1 1 p t q h hg
    exact ⟨by simpa using wf_before this, by simpa using wf_after this, dimension_eq q⟩
  · rintro ⟨hs, hp⟩
    exact wf_of_paths t 1 1 hs fun p q hg => by simpa using ⟨(hp p q hg).1, (hp p q hg).2.1⟩

/-! ### Shapes -/

mutual
/-- The kinds, the nesting and the dimensions of the single systems, without the positions. -/
def skel : Sys → Sys
  | node k d _ _ s => node k (if k = some true then 0 else d) 0 0 (skelL s)
/-- The same for a list of systems. -/
def skelL : List Sys → List Sys
  | [] => []
  | s :: r => skel s :: skelL r
end

theorem skelL_eq (s : List Sys) : skelL s = s.map skel := by
  induction s with
  | nil => rfl
  | cons q r ih => simp [skelL, ih]

mutual
theorem skel_setBefore : ∀ (s : Sys) (v : Nat), skel (setBefore v s) = skel s
  | node k d b a s, v => by simp [setBefore, skel, skelL_scaleBefore s]
theorem skelL_scaleBefore : ∀ (s : List Sys) (v o : Nat), skelL (scaleBefore v o s) = skelL s
  | [], _, _ => by simp [scaleBefore]
  | s :: r, v, o => by simp [scaleBefore, skelL, skel_setBefore s, skelL_scaleBefore r]
end

mutual
theorem skel_setAfter : ∀ (s : Sys) (v : Nat), skel (setAfter v s) = skel s
  | node k d b a s, v => by simp [setAfter, skel, skelL_scaleAfter s]
theorem skelL_scaleAfter : ∀ (s : List Sys) (v o : Nat), skelL (scaleAfter v o s) = skelL s
  | [], _, _ => by simp [scaleAfter]
  | s :: r, v, o => by simp [scaleAfter, skelL, skel_setAfter s, skelL_scaleAfter r]
end

theorem map_skel_updateDim (i new old : Nat) (s : List Sys) : (updateDim i new old s).map skel = s.map skel := by
  unfold updateDim
  apply List.ext_getElem
  · simp
  · intro n h1 h2
    simp only [List.getElem_map, List.getElem_mapIdx]
    split
    · exact skel_setAfter _ _
    · split
      · exact skel_setBefore _ _
      · rfl

theorem get_skel : ∀ (p : List Nat) (t q : Sys), sysAt t p = some q → sysAt (skel t) p = some (skel q)
  | [], t, q, h => by cases t; simp only [sysAt, Option.some.injEq] at h; subst h; simp [skel, sysAt]
  | i :: p, node k d b a s, q, h => by
    cases hq : s[i]? with
    | none => simp [sysAt, hq] at h
    | some x =>
      simp only [sysAt, hq] at h
      simp [skel, skelL_eq, sysAt, hq, get_skel p x q h]

theorem skel_get : ∀ (p : List Nat) (t q' : Sys), sysAt (skel t) p = some q' → ∃ q, sysAt t p = some q ∧ skel q = q'
  | [], t, q, h => by
    cases t
    simp only [skel, sysAt, Option.some.injEq] at h
    exact ⟨_, rfl, by simp [skel, h]⟩
  | i :: p, node k d b a s, q, h => by
    cases hq : s[i]? with
    | none => simp [skel, skelL_eq, sysAt, hq] at h
    | some x =>
      simp only [skel, skelL_eq, sysAt, List.getElem?_map, hq, Option.map_some] at h
      obtain ⟨y, h1, h2⟩ := skel_get p x q h
      exact ⟨y, by simp [sysAt, hq, h1], h2⟩

/-! ### Taking out -/

theorem map_eraseIdx {α β : Type} (f : α → β) : ∀ (s : List α) (i : Nat), (s.map f).eraseIdx i = (s.eraseIdx i).map f
  | [], _ => by simp
  | _ :: _, 0 => by simp
  | _ :: r, i + 1 => by simp [map_eraseIdx f r i]

theorem pop_skel : ∀ (p : List Nat) (t t' : Sys), pop p t = some t' → pop p (skel t) = some (skel t')
  | [], t, t', h => by cases t; simp [pop] at h
  | [i], node k d b a s, t', h => by
    simp only [pop] at h
    by_cases hi : i < s.length
    · simp only [hi, if_true, Option.some.injEq] at h
      subst h
      simp [skel, skelL_eq, pop, hi, map_eraseIdx]
    · simp [hi] at h
  | i :: j :: p, node k d b a s, t', h => by
    cases hq : s[i]? with
    | none => simp [pop, hq] at h
    | some x =>
      cases hx : pop (j :: p) x with
      | none => simp [pop, hq, hx] at h
      | some x' =>
        simp only [pop, hq, hx, Option.some.injEq] at h
        subst h
        simp [skel, skelL_eq, pop, hq, pop_skel (j :: p) x x' hx, List.map_set]

theorem pop_of_get : ∀ (p : List Nat) (t q : Sys), p ≠ [] → sysAt t p = some q → ∃ t', pop p t = some t'
  | [], _, _, hp, _ => absurd rfl hp
  | [i], node k d b a s, q, _, h => by
    have hi : i < s.length := by
      by_contra hi
      rw [Nat.not_lt] at hi
      simp [sysAt, List.getElem?_eq_none hi] at h
    exact ⟨node k d b a (s.eraseIdx i), by simp [pop, hi]⟩
  | i :: j :: p, node k d b a s, q, _, h => by
    cases hq : s[i]? with
    | none => simp [sysAt, hq] at h
    | some x =>
      simp only [sysAt, hq] at h
      obtain ⟨t', ht⟩ := pop_of_get (j :: p) x q (by simp) h
      exact ⟨node k d b a (s.set i t'), by simp [pop, hq, ht]⟩

theorem pop_modify (f : Sys → Option Sys) : ∀ (p : List Nat) (t t₁ : Sys), p ≠ [] → modifyAt f p t = some t₁ →
    pop p t₁ = pop p t
  | [], _, _, hp, _ => absurd rfl hp
  | [i], node k d b a s, t₁, _, h => by
    cases hq : s[i]? with
    | none => simp [modifyAt, hq] at h
    | some x =>
      cases hx : f x with
      | none => simp [modifyAt, hq, hx] at h
      | some x' =>
        simp only [modifyAt, hq, hx, Option.some.injEq] at h
        subst h
        simp [pop, List.eraseIdx_set_eq]
  | i :: j :: p, node k d b a s, t₁, _, h => by
    cases hq : s[i]? with
    | none => simp [modifyAt, hq] at h
    | some x =>
      cases hx : modifyAt f (j :: p) x with
      | none =>
        unfold modifyAt at h
        simp [hq, hx] at h
      | some x' =>
        unfold modifyAt at h
        simp only [hq, hx, Option.some.injEq] at h
        subst h
        have ih := pop_modify f (j :: p) x x' (by simp) hx
        have hi : i < s.length := (List.getElem?_eq_some_iff.1 hq).1
        have e : s[i] = x := (List.getElem?_eq_some_iff.1 hq).2
        simp [pop, hi, ih, e]

theorem skel_setDim (d : Nat) : ∀ (p : List Nat) (t t' : Sys) (o : Option Nat), setDim d p t = some (t', o) →
    ∃ f, modifyAt f p (skel t) = some (skel t')
  | [], t, t', _, _ => ⟨fun _ => some (skel t'), by simp [modifyAt]⟩
  | i :: p, node k d₀ b a s, t', o, h => by
    cases hq : s[i]? with
    | none => simp [setDim, hq] at h
    | some x =>
      unfold setDim at h
      simp only [hq] at h
      cases hx : setDim d p x with
      | none => simp [hx] at h
      | some res =>
        obtain ⟨x', o'⟩ := res
        obtain ⟨f, hf⟩ := skel_setDim d p x x' o' hx
        refine ⟨f, ?_⟩
        simp only [hx] at h
        cases o' with
        | none =>
          simp only [Option.some.injEq, Prod.mk.injEq] at h
          obtain ⟨rfl, rfl⟩ := h
          simp [skel, skelL_eq, modifyAt, hq, hf, List.map_set]
        | some old =>
          simp only [Option.some.injEq, Prod.mk.injEq] at h
          obtain ⟨rfl, rfl⟩ := h
          simp [skel, skelL_eq, modifyAt, hq, hf, map_skel_updateDim, List.map_set]

theorem updateDim_self (i new old : Nat) (s : List Sys) : (updateDim i new old s)[i]? = s[i]? := by
  simp [updateDim]

/-- What the dimension setter does at the system itself. -/
theorem get_setDim (d : Nat) : ∀ (p : List Nat) (t q : Sys), sysAt t p = some q → ∀ (t' : Sys) (o : Option Nat),
    setDim d p t = some (t', o) → ∃ q', sysAt t' p = some q' ∧ setDim d [] q = some (q', o)
  | [], t, q, hg, t', o, h => by
    cases t
    simp only [sysAt, Option.some.injEq] at hg
    subst hg
    exact ⟨t', by cases t'; rfl, h⟩
  | i :: p, node k d₀ b a s, q, hg, t', o, h => by
    cases hq : s[i]? with
    | none => simp [sysAt, hq] at hg
    | some x =>
      have hi : i < s.length := (List.getElem?_eq_some_iff.1 hq).1
      simp only [sysAt, hq] at hg
      unfold setDim at h
      simp only [hq] at h
      cases hx : setDim d p x with
      | none => simp [hx] at h
      | some res =>
        obtain ⟨x', o'⟩ := res
        obtain ⟨q', h1, h2⟩ := get_setDim d p x q hg x' o' hx
        simp only [hx] at h
        cases o' with
        | none =>
          simp only [Option.some.injEq, Prod.mk.injEq] at h
          obtain ⟨rfl, rfl⟩ := h
          exact ⟨q', by simp [sysAt, hi, h1], h2⟩
        | some old =>
          simp only [Option.some.injEq, Prod.mk.injEq] at h
          obtain ⟨rfl, rfl⟩ := h
          exact ⟨q', by simp [sysAt, updateDim_self, hi, h1], h2⟩

/-- The dimension setter with a positive value raises nothing. -/
theorem setDim_total (d : Nat) (hd : d ≠ 0) : ∀ (p : List Nat) (t q : Sys), sysAt t p = some q →
    ∃ r, setDim d p t = some r
  | [], node k d₀ b a s, q, _ => by
    unfold setDim
    simp only [hd, if_false]
    cases k with
    | none => cases s <;> exact ⟨_, rfl⟩
    | some v => cases v <;> exact ⟨_, rfl⟩
  | i :: p, node k d₀ b a s, q, hg => by
    cases hq : s[i]? with
    | none => simp [sysAt, hq] at hg
    | some x =>
      simp only [sysAt, hq] at hg
      obtain ⟨⟨x', o⟩, hx⟩ := setDim_total d hd p x q hg
      unfold setDim
      simp only [hq, hx]
      cases o <;> exact ⟨_, rfl⟩

/-- Taking out a system of dimension one. -/
theorem wf_pop : ∀ (p : List Nat) (t t' q : Sys) (L R : Nat), WF L R t → sysAt t p = some q → q.dimension = 1 →
    pop p t = some t' → WF L R t' ∧ t'.dimension = t.dimension
  | [], t, t', q, L, R, hw, hg, hd, h => by cases t; simp [pop] at h
  | [i], node k d b a s, t', q, L, R, hw, hg, hd, h => by
    unfold WF at hw
    obtain ⟨rfl, rfl, h1, h2⟩ := hw
    cases hq : s[i]? with
    | none => simp [sysAt, hq] at hg
    | some x =>
      have hk : k = some true := by
        by_contra hk
        rw [(h2 hk).1] at hq
        simp at hq
      subst hk
      obtain ⟨l, r, rfl, rfl⟩ := split_at s i x hq
      have hxq : x = q := by
        cases x
        simpa [sysAt, hq] using hg
      subst hxq
      simp only [pop, List.length_append, List.length_cons] at h
      rw [if_pos (by omega)] at h
      simp only [Option.some.injEq] at h
      subst h
      have e : (l ++ x :: r).eraseIdx l.length = l ++ r := by simp [List.eraseIdx_append]
      have hs := h1 rfl
      rw [wfL_append] at hs
      simp only [WFL, dimProd, hd, Nat.one_mul, Nat.mul_one] at hs
      rw [e]
      refine ⟨?_, by simp [dimension, dimProd_append, dimProd, hd]⟩
      unfold WF
      exact ⟨rfl, rfl, fun _ => (wfL_append l r _ _).2 ⟨hs.1, hs.2.2⟩, fun hk => absurd rfl hk⟩
  | i :: j :: p, node k d b a s, t', q, L, R, hw, hg, hd, h => by
    unfold WF at hw
    obtain ⟨rfl, rfl, h1, h2⟩ := hw
    cases hq : s[i]? with
    | none => simp [sysAt, hq] at hg
    | some x =>
      have hk : k = some true := by
        by_contra hk
        rw [(h2 hk).1] at hq
        simp at hq
      subst hk
      obtain ⟨l, r, rfl, rfl⟩ := split_at s i x hq
      simp only [sysAt, hq] at hg
      have hs := h1 rfl
      rw [wfL_append] at hs
      simp only [WFL, dimProd] at hs
      cases hx : pop (j :: p) x with
      | none => simp [pop, hq, hx] at h
      | some x' =>
        simp only [pop, hq, hx, Option.some.injEq] at h
        subst h
        have ih := wf_pop (j :: p) x x' q _ _ hs.2.1 hg hd hx
        simp only [set_append]
        refine ⟨?_, by simp [dimension, dimProd_append, dimProd, ih.2]⟩
        unfold WF
        refine ⟨rfl, rfl, fun _ => ?_, fun hk => absurd rfl hk⟩
        rw [wfL_append]
        simp only [WFL, dimProd, ih.2]
        exact ⟨hs.1, ih.1, hs.2.2⟩

end Verif.Tree
